import Verif.LinkOrder.Enter

/-!
# Link order of libraries: the walk
-/

namespace Verif.LinkOrder

variable {n : Nat} {p : Tsys} {g : Libs n} {tops : List (Fin n × Bool)}

/-! ## No more than there are -/

theorem nodup_length {α : Type} [DecidableEq α] : ∀ (l m : List α), l.Nodup → (∀ x ∈ l, x ∈ m) →
    l.length ≤ m.length
  | [], _, _, _ => by simp
  | x :: l, m, hn, hm => by
    rw [List.nodup_cons] at hn
    have h := nodup_length l (m.erase x) hn.2 (by
      intro y hy
      rw [List.mem_erase_of_ne (by rintro rfl; exact hn.1 hy)]
      exact hm y (by simp [hy]))
    have hx := hm x (by simp)
    rw [List.length_erase_of_mem hx] at h
    have := List.length_pos_of_mem hx
    simp
    omega

theorem nodup_fin (l : List (Fin n)) (h : l.Nodup) : l.length ≤ n := by
  have := nodup_length l (List.finRange n) h (fun x _ => List.mem_finRange x)
  simpa using this

/-! ## What is kept -/

/-- It is there, is after what is being processed and, if a library, is complete. -/
structure Done (g : Libs n) (chain : List (Fin n)) (L : List (Dep n)) (fin : List (Fin n)) (d : Dep n) :
    Prop where
  mem : d ∈ L
  after : d.recBinless g = false → ∀ x ∈ chain, ∀ w, After L (.lib x w) d
  fin : ∀ j w, d = .lib j w → j ∈ fin

/-- What holds between the steps. -/
structure Good (p : Tsys) (g : Libs n) (tops : List (Fin n × Bool)) (chain : List (Fin n)) (o : Order n)
    (fin : List (Fin n)) : Prop where
  need : ∀ d ∈ things o, Needed p g tops d
  pass : ∀ d f, (d, f) ∈ o → Passed p g tops d f
  deps : ∀ i w, .lib i w ∈ things o → i ∉ chain → ∀ d, Uses p g (g i) d → d ∈ things o ∧
    ((g i).recBinless = false → d.recBinless g = false → After (things o) (.lib i w) d)
  comp : ∀ i w, .lib i w ∈ things o → i ∈ chain ∨ i ∈ fin
  topo : ∀ a i b, fin = a ++ i :: b → ∀ j w, Uses p g (g i) (.lib j w) → j ∈ b

/-- What a step preserves. -/
structure Ext (chain : List (Fin n)) (L L' : List (Dep n)) (fin fin' : List (Fin n)) : Prop where
  mem : ∀ x ∈ L, x ∈ L'
  fin : ∀ i ∈ fin, i ∈ fin'
  after : ∀ x ∈ chain, ∀ w d, After L (.lib x w) d → After L' (.lib x w) d

theorem Ext.refl (chain : List (Fin n)) (L : List (Dep n)) (fin : List (Fin n)) :
    Ext chain L L fin fin := ⟨fun _ h => h, fun _ h => h, fun _ _ _ _ h => h⟩

theorem Ext.trans {chain : List (Fin n)} {L L' L'' : List (Dep n)} {fin fin' fin'' : List (Fin n)}
    (h : Ext chain L L' fin fin') (h' : Ext chain L' L'' fin' fin'') : Ext chain L L'' fin fin'' :=
  ⟨fun x hx => h'.mem x (h.mem x hx), fun x hx => h'.fin x (h.fin x hx),
    fun x hx w d ha => h'.after x hx w d (h.after x hx w d ha)⟩

theorem Ext.sub {chain chain' : List (Fin n)} {L L' : List (Dep n)} {fin fin' : List (Fin n)}
    (h : Ext chain' L L' fin fin') (hc : ∀ x ∈ chain, x ∈ chain') : Ext chain L L' fin fin' :=
  ⟨h.mem, h.fin, fun x hx => h.after x (hc x hx)⟩

theorem Done.ext {chain : List (Fin n)} {L L' : List (Dep n)} {fin fin' : List (Fin n)} {d : Dep n}
    (h : Done g chain L fin d) (he : Ext chain L L' fin fin') : Done g chain L' fin' d :=
  ⟨he.mem _ h.mem, fun hr x hx w => he.after x hx w d (h.after hr x hx w),
    fun j w hd => he.fin j (h.fin j w hd)⟩

theorem Done.sub {chain chain' : List (Fin n)} {L : List (Dep n)} {fin fin' : List (Fin n)} {d : Dep n}
    (h : Done g chain' L fin d) (hc : ∀ x ∈ chain, x ∈ chain') (hf : ∀ x ∈ fin, x ∈ fin') :
    Done g chain L fin' d :=
  ⟨h.mem, fun hr x hx => h.after hr x (hc x hx), fun j w hd => hf j (h.fin j w hd)⟩

/-- What has been seen in an interface. -/
def Dedup (g : Libs n) (chain : List (Fin n)) (L : List (Dep n)) (fin : List (Fin n))
    (dd dd' : Option (List (Fin n))) : Prop :=
  (dd = none → dd' = none) ∧ ∀ D, dd = some D → ∃ E, dd' = some (D ++ E) ∧
    ∀ j ∈ E, Done g chain L fin (.lib j (g j).whole)

theorem Dedup.refl (g : Libs n) (chain : List (Fin n)) (L : List (Dep n)) (fin : List (Fin n))
    (dd : Option (List (Fin n))) : Dedup g chain L fin dd dd :=
  ⟨fun h => h, fun D h => ⟨[], by simp [h], by simp⟩⟩

/-- When a library is processed. -/
structure Call (p : Tsys) (g : Libs n) (tops : List (Fin n × Bool)) (chain : List (Fin n)) (i : Fin n)
    (w : Bool) : Prop where
  need : Needed p g tops (.lib i w)
  via : Via p g tops (chain.all fun j => (g j).util) i
  leads : ∀ j ∈ chain, Leads p g j i

theorem Leads.snoc {i j k : Fin n} {w : Bool} (h : Leads p g i j) (hu : Uses p g (g j) (.lib k w)) :
    Leads p g i k := by
  induction h with
  | one h => exact .more h (.one hu)
  | more h _ ih => exact .more h (ih hu)

theorem Call.step {chain : List (Fin n)} {i j : Fin n} {w w' : Bool} (h : Call p g tops chain i w)
    (hu : Uses p g (g i) (.lib j w')) : Call p g tops (i :: chain) j w' := by
  refine ⟨.step h.need hu, ?_, ?_⟩
  · rw [List.all_cons, Bool.and_comm]
    exact .step h.via hu
  · intro k hk
    rcases List.mem_cons.1 hk with rfl | hk
    · exact .one hu
    · exact (h.leads k hk).snoc hu

theorem any_all (chain : List (Fin n)) :
    chain.any (fun j => !(g j).util) = !(chain.all fun j => (g j).util) := by
  rw [List.not_all_eq_any_not]

theorem Call.passed {chain : List (Fin n)} {i : Fin n} {w : Bool} (h : Call p g tops chain i w) :
    Passed p g tops (.lib i w) (fragOf p g chain i w) := by
  unfold fragOf bodyArgs
  rw [any_all]
  have hv := h.via
  by_cases hu : ((g i).util && !(chain.all fun j => (g j).util)) = true
  · rw [if_pos hu, List.append_nil]
    simp only [Bool.and_eq_true, Bool.not_eq_true'] at hu
    rw [hu.2] at hv
    exact .part (optsOf_options _) hu.1 hv
  · rw [if_neg hu]
    by_cases hb : (g i).binless = true
    · rw [if_pos hb, List.append_nil]
      exact .binless (optsOf_options _) hb
    · rw [if_neg hb]
      refine .file (optsOf_options _) (by simpa using hb) ?_
      intro h1
      rw [h1] at hu
      simp only [Bool.true_and, Bool.not_eq_true', Bool.not_eq_false] at hu
      rw [hu] at hv
      exact hv

/-- Something is touched. -/
theorem good_touch {chain chain' : List (Fin n)} {o o' : Order n} {fin : List (Fin n)} {d : Dep n}
    {f : List Str} (h : Good p g tops chain o fin) (ht : Touch o d f o')
    (hn : Needed p g tops d) (hp : Passed p g tops d f) (hc : ∀ x ∈ chain, x ∈ chain')
    (hd : ∀ i w, d = .lib i w → i ∈ chain') : Good p g tops chain' o' fin := by
  obtain ⟨m1, m2⟩ := touch_mem ht
  obtain ⟨a1, a2⟩ := touch_after ht
  have hold : ∀ i w, .lib i w ∈ things o' → i ∉ chain' → .lib i w ∈ things o ∧ .lib i w ≠ d ∧
      i ∉ chain := by
    intro i w hi hic
    have hne : .lib i w ≠ d := by
      intro he
      exact hic (hd i w he.symm)
    exact ⟨((m1 _).1 hi).resolve_right hne, hne, fun hx => hic (hc _ hx)⟩
  refine ⟨?_, ?_, ?_, ?_, h.topo⟩
  · intro x hx
    rcases (m1 x).1 hx with hx | rfl
    · exact h.need x hx
    · exact hn
  · intro x f1 hx
    rcases m2 x f1 hx with hx | ⟨rfl, rfl⟩
    · exact h.pass x f1 hx
    · exact hp
  · intro i w hi hic d' hu
    obtain ⟨b1, b2, b3⟩ := hold i w hi hic
    obtain ⟨c1, c2⟩ := h.deps i w b1 b3 d' hu
    exact ⟨(m1 _).2 (.inl c1), fun r1 r2 => a2 _ _ b2 (c2 r1 r2)⟩
  · intro i w hi
    by_cases hic : i ∈ chain'
    · exact .inl hic
    · obtain ⟨b1, b2, b3⟩ := hold i w hi hic
      exact .inr ((h.comp i w b1).resolve_left b3)

theorem ext_touch {chain : List (Fin n)} {o o' : Order n} {fin : List (Fin n)} {d : Dep n}
    {f : List Str} (ht : Touch o d f o') (hd : ∀ i w, d = .lib i w → i ∉ chain) :
    Ext chain (things o) (things o') fin fin := by
  obtain ⟨m1, -⟩ := touch_mem ht
  obtain ⟨-, a2⟩ := touch_after ht
  refine ⟨fun x hx => (m1 x).2 (.inl hx), fun _ h => h, ?_⟩
  intro x hx w d' ha
  exact a2 _ _ (fun he => hd x w he.symm hx) ha

/-- The library is complete. -/
theorem good_pop {chain : List (Fin n)} {o : Order n} {fin : List (Fin n)} {i : Fin n}
    (h : Good p g tops (i :: chain) o fin)
    (hd : ∀ d, Uses p g (g i) d → Done g (i :: chain) (things o) fin d) :
    ∃ fin', Good p g tops chain o fin' ∧ (∀ x ∈ fin, x ∈ fin') ∧ i ∈ fin' := by
  have hdeps : ∀ k w, .lib k w ∈ things o → k ∉ chain → ∀ d, Uses p g (g k) d → d ∈ things o ∧
      ((g k).recBinless = false → d.recBinless g = false → After (things o) (.lib k w) d) := by
    intro k w hk hkc d hu
    by_cases hki : k = i
    · subst hki
      have := hd d hu
      exact ⟨this.mem, fun _ hr => this.after hr _ (by simp) w⟩
    · exact h.deps k w hk (by simp [hki, hkc]) d hu
  by_cases hi : i ∈ fin
  · refine ⟨fin, ⟨h.need, h.pass, hdeps, ?_, h.topo⟩, fun _ h => h, hi⟩
    intro k w hk
    rcases h.comp k w hk with hc | hc
    · rcases List.mem_cons.1 hc with rfl | hc
      · exact .inr hi
      · exact .inl hc
    · exact .inr hc
  · refine ⟨i :: fin, ⟨h.need, h.pass, hdeps, ?_, ?_⟩, fun _ h => by simp [h], by simp⟩
    · intro k w hk
      rcases h.comp k w hk with hc | hc
      · rcases List.mem_cons.1 hc with rfl | hc
        · exact .inr (by simp)
        · exact .inl hc
      · exact .inr (by simp [hc])
    · intro a k b hab j w hu
      cases a with
      | nil =>
        simp at hab
        obtain ⟨rfl, rfl⟩ := hab
        exact (hd _ hu).fin j w rfl
      | cons y a =>
        simp at hab
        exact h.topo a k b hab.2 j w hu

/-! ## Results -/

/-- The result of processing. -/
def Post {α : Type} (p : Tsys) (g : Libs n) (tops : List (Fin n × Bool)) (R : α → Prop) : Res α → Prop
  | .ok a => R a
  | .cycle => Cyclic p g tops
  | .ub => False
  | .deep => False

/-- The result of processing several. -/
def LoopPost (P : List Str) (p : Tsys) (g : Libs n) (tops : List (Fin n × Bool)) (chain : List (Fin n))
    (ds : List (Dep n)) (dd : Option (List (Fin n))) (o : Order n) (fin : List (Fin n))
    (r : St n × Option (List (Fin n))) : Prop :=
  ∃ o' fin', Rep P r.1 o' ∧ Good p g tops chain o' fin' ∧ Ext chain (things o) (things o') fin fin' ∧
    (∀ d ∈ ds, Done g chain (things o') fin' d) ∧ Dedup g chain (things o') fin' dd r.2

theorem loop_spec {P : List Str} {chain : List (Fin n)} {st : Nat}
    {rec : Fin n → Bool → Option (List (Fin n)) → St n → Res (St n × Option (List (Fin n)))}
    (hrec : ∀ j w dd s o fin, Call p g tops chain j w → Rep P s o → Good p g tops chain o fin →
      Post p g tops (LoopPost P p g tops chain [.lib j w] dd o fin) (rec j w dd s)) :
    ∀ (ds : List (Dep n)) (dd : Option (List (Fin n))) (s : St n) (o : Order n) (fin : List (Fin n)),
      (∀ j w, .lib j w ∈ ds → Call p g tops chain j w) →
      (∀ c, .words c ∈ ds → Needed p g tops (.words c)) →
      (∀ D, dd = some D → st ≤ D.length ∧ (∀ j w, .lib j w ∈ ds → w = (g j).whole) ∧
        ∀ j ∈ D.drop st, Done g chain (things o) fin (.lib j (g j).whole)) →
      Rep P s o → Good p g tops chain o fin →
      Post p g tops (LoopPost P p g tops chain ds dd o fin) (loop rec st ds dd s) := by
  intro ds
  induction ds with
  | nil =>
    intro dd s o fin _ _ _ hr hg
    exact ⟨o, fin, hr, hg, Ext.refl _ _ _, by simp, Dedup.refl _ _ _ _ _⟩
  | cons d ds ih =>
    intro dd s o fin hcall hneed hseen hr hg
    -- What remains.
    have rest : ∀ dd1 s1 o1 fin1, Rep P s1 o1 → Good p g tops chain o1 fin1 →
        Ext chain (things o) (things o1) fin fin1 → Done g chain (things o1) fin1 d →
        Dedup g chain (things o1) fin1 dd dd1 →
        Post p g tops (LoopPost P p g tops chain (d :: ds) dd o fin) (loop rec st ds dd1 s1) := by
      intro dd1 s1 o1 fin1 hr1 hg1 he1 hd1 hdd1
      have := ih dd1 s1 o1 fin1 (fun j w h => hcall j w (by simp [h]))
        (fun c h => hneed c (by simp [h])) (by
          intro D1 hD1
          cases dd with
          | none => rw [hdd1.1 rfl] at hD1; cases hD1
          | some D =>
            obtain ⟨E, h1, h2⟩ := hdd1.2 D rfl
            rw [h1] at hD1
            cases hD1
            obtain ⟨s1, s2, s3⟩ := hseen D rfl
            refine ⟨by simp; omega, fun j w h => s2 j w (by simp [h]), ?_⟩
            intro j hj
            rw [List.drop_append_of_le_length s1, List.mem_append] at hj
            rcases hj with hj | hj
            · exact (s3 j hj).ext he1
            · exact h2 j hj) hr1 hg1
      revert this
      cases loop rec st ds dd1 s1 with
      | cycle => exact fun h => h
      | ub => exact fun h => h
      | deep => exact fun h => h
      | ok r =>
        rintro ⟨o2, fin2, k1, k2, k3, k4, k5⟩
        refine ⟨o2, fin2, k1, k2, he1.trans k3, ?_, ?_, ?_⟩
        · intro x hx
          rcases List.mem_cons.1 hx with rfl | hx
          · exact hd1.ext k3
          · exact k4 x hx
        · intro h
          exact k5.1 (hdd1.1 h)
        · intro D hD
          obtain ⟨E, h1, h2⟩ := hdd1.2 D hD
          obtain ⟨E', h3, h4⟩ := k5.2 _ h1
          refine ⟨E ++ E', by rw [h3, List.append_assoc], ?_⟩
          intro j hj
          rcases List.mem_append.1 hj with hj | hj
          · exact (h2 j hj).ext k3
          · exact h4 j hj
    cases d with
    | words c =>
      rw [loop]
      obtain ⟨s1, o1, h1, h2, h3⟩ := libWords_rep hr c
      rw [h1]
      simp only
      refine rest dd s1 o1 fin h3 ?_ ?_ ?_ (Dedup.refl _ _ _ _ _)
      · exact good_touch hg h2 (hneed c (by simp)) .words (fun _ h => h) (by intro i w h; cases h)
      · exact ext_touch h2 (by intro i w h; cases h)
      · refine ⟨((touch_mem h2).1 _).2 (.inr rfl), ?_, by intro j w h; cases h⟩
        intro _ x _ w
        exact (touch_after h2).1 _ (by simp)
    | lib j w =>
      cases dd with
      | none =>
        rw [loop]
        have := hrec j w none s o fin (hcall j w (by simp)) hr hg
        revert this
        cases rec j w none s with
        | cycle => exact fun h => h
        | ub => exact fun h => h
        | deep => exact fun h => h
        | ok r =>
          rintro ⟨o1, fin1, k1, k2, k3, k4, k5⟩
          obtain ⟨s1, dd1⟩ := r
          simp only
          have hnone := k5.1 rfl
          simp only at hnone
          exact rest none s1 o1 fin1 k1 k2 k3 (k4 _ (by simp)) (Dedup.refl _ _ _ _ _)
      | some D =>
        rw [loop]
        obtain ⟨s1, s2, s3⟩ := hseen D rfl
        by_cases hc : (D.drop st).contains j = true
        · rw [if_pos hc]
          have hj : j ∈ D.drop st := by simpa using hc
          have hw := s2 j w (by simp)
          subst hw
          exact rest (some D) s o fin hr hg (Ext.refl _ _ _) (s3 j hj) (Dedup.refl _ _ _ _ _)
        · rw [if_neg hc]
          have := hrec j w (some (D ++ [j])) s o fin (hcall j w (by simp)) hr hg
          revert this
          cases rec j w (some (D ++ [j])) s with
          | cycle => exact fun h => h
          | ub => exact fun h => h
          | deep => exact fun h => h
          | ok r =>
            rintro ⟨o1, fin1, k1, k2, k3, k4, k5⟩
            obtain ⟨s1, dd1⟩ := r
            simp only
            refine rest dd1 s1 o1 fin1 k1 k2 k3 (k4 _ (by simp)) ⟨by simp, ?_⟩
            rintro D' ⟨⟩
            obtain ⟨E, h1, h2⟩ := k5.2 _ rfl
            simp only at h1
            refine ⟨[j] ++ E, by rw [h1, List.append_assoc], ?_⟩
            intro k hk
            rcases List.mem_append.1 hk with hk | hk
            · have : k = j := by simpa using hk
              subst this
              have hw := s2 k w (by simp)
              subst hw
              exact k4 _ (by simp)
            · exact h2 k hk

theorem visit_spec {P : List Str}
    (hclean : ∀ i, Needed p g tops (.lib i true) → ¬ (g i).exports) :
    ∀ (f : Nat) (chain : List (Fin n)) (i : Fin n) (w : Bool) (dd : Option (List (Fin n))) (s : St n)
      (o : Order n) (fin : List (Fin n)), chain.Nodup → n < f + chain.length →
      Call p g tops chain i w → Rep P s o → Good p g tops chain o fin →
      Post p g tops (LoopPost P p g tops chain [.lib i w] dd o fin) (visit p g f chain i w dd s) := by
  intro f
  induction f with
  | zero =>
    intro chain i w dd s o fin hn hl
    have := nodup_fin chain hn
    omega
  | succ f ih =>
    intro chain i w dd s o fin hn hl hcall hr hg
    rw [visit]
    by_cases hc : chain.contains i = true
    · rw [if_pos hc]
      exact ⟨i, w, hcall.need, hcall.leads i (by simpa using hc)⟩
    · rw [if_neg hc]
      have hic : i ∉ chain := by simpa using hc
      have hn' : (i :: chain).Nodup := List.nodup_cons.2 ⟨hic, hn⟩
      rcases enter hr p g chain i w (fun hw => hclean i (hw ▸ hcall.need)) with
        ⟨s1, h1, h2, rfl, h3, h4⟩ | ⟨s1, o1, h1, h2, h3⟩
      · rw [h1]
        refine ⟨o, fin, h2, hg, Ext.refl _ _ _, ?_, Dedup.refl _ _ _ _ _⟩
        intro d hd
        have : d = .lib i false := by simpa using hd
        subst this
        refine ⟨h4, ?_, ?_⟩
        · intro hr; rw [Dep.recBinless, h3] at hr; cases hr
        · rintro j w ⟨⟩
          exact (hg.comp i false h4).resolve_left hic
      · rw [h1]
        have hg1 : Good p g tops (i :: chain) o1 fin :=
          good_touch hg h3 hcall.need hcall.passed (fun x hx => by simp [hx])
            (by rintro j w' ⟨⟩; simp)
        have he1 : Ext chain (things o) (things o1) fin fin :=
          ext_touch h3 (by rintro j w' ⟨⟩; exact hic)
        have hm1 : .lib i w ∈ things o1 := ((touch_mem h3).1 _).2 (.inr rfl)
        have ha1 : ∀ x ∈ chain, ∀ w', After (things o1) (.lib x w') (.lib i w) := by
          intro x hx w'
          refine (touch_after h3).1 _ ?_
          rintro ⟨⟩
          exact hic hx
        have hrec : ∀ j w dd s o fin, Call p g tops (i :: chain) j w → Rep P s o →
            Good p g tops (i :: chain) o fin →
            Post p g tops (LoopPost P p g tops (i :: chain) [.lib j w] dd o fin)
              (visit p g f (i :: chain) j w dd s) := by
          intro j w dd s o fin hc hr hg
          exact ih (i :: chain) j w dd s o fin hn' (by simp; omega) hc hr hg
        have fin_case : ∀ dd0 s2 dd2 o2 fin2, Rep P s2 o2 → Good p g tops (i :: chain) o2 fin2 →
            Ext (i :: chain) (things o1) (things o2) fin fin2 →
            (∀ d ∈ deps p g (g i), Done g (i :: chain) (things o2) fin2 d) →
            Dedup g (i :: chain) (things o2) fin2 dd0 dd2 →
            ∃ fin', Rep P s2 o2 ∧ Good p g tops chain o2 fin' ∧
              Ext chain (things o) (things o2) fin fin' ∧
              (∀ d ∈ [Dep.lib i w], Done g chain (things o2) fin' d) ∧
              Dedup g chain (things o2) fin' dd0 dd2 := by
          intro dd0 s2 dd2 o2 fin2 k1 k2 k3 k4 k5
          obtain ⟨fin', g1, g2, g3⟩ := good_pop k2 (fun d hu => k4 d ((uses_iff p g _ d).2 hu))
          have k3' : Ext chain (things o1) (things o2) fin fin2 := k3.sub (fun x hx => by simp [hx])
          have he : Ext chain (things o) (things o2) fin fin' := by
            have := he1.trans k3'
            exact ⟨this.mem, fun x hx => g2 x (this.fin x hx), this.after⟩
          refine ⟨fin', k1, g1, he, ?_, k5.1, ?_⟩
          · intro d hd
            have : d = .lib i w := by simpa using hd
            subst this
            refine ⟨k3'.mem _ hm1, ?_, ?_⟩
            · intro _ x hx w'
              exact k3'.after x hx w' _ (ha1 x hx w')
            · rintro j w' ⟨⟩; exact g3
          · intro D hD
            obtain ⟨E, e1, e2⟩ := k5.2 D hD
            exact ⟨E, e1, fun j hj => (e2 j hj).sub (fun x hx => by simp [hx]) g2⟩
        have hcalls : ∀ j w', .lib j w' ∈ deps p g (g i) → Call p g tops (i :: chain) j w' :=
          fun j w' h => hcall.step ((uses_iff p g _ _).1 h)
        have hneeds : ∀ c, .words c ∈ deps p g (g i) → Needed p g tops (.words c) :=
          fun c h => .step hcall.need ((uses_iff p g _ _).1 h)
        simp only
        by_cases hs : (g i).static = true
        · rw [if_pos hs]
          have := loop_spec (P := P) (st := 0) hrec (deps p g (g i)) none s1 o1 fin hcalls hneeds
            (by intro D h; cases h) h2 hg1
          revert this
          cases loop (visit p g f (i :: chain)) 0 (deps p g (g i)) none s1 with
          | cycle => exact fun h => h
          | ub => exact fun h => h
          | deep => exact fun h => h
          | ok r =>
            rintro ⟨o2, fin2, k1, k2, k3, k4, k5⟩
            obtain ⟨s2, dd2⟩ := r
            obtain ⟨fin', q1, q2, q3, q4, q5⟩ := fin_case dd s2 dd o2 fin2 k1 k2 k3 k4
              (Dedup.refl _ _ _ _ _)
            exact ⟨o2, fin', q1, q2, q3, q4, q5⟩
        · rw [if_neg hs]
          have hs' : (g i).static = false := by simpa using hs
          have := loop_spec (P := P) (st := (dd.getD []).length) hrec (deps p g (g i))
            (some (dd.getD [])) s1 o1 fin hcalls hneeds
            (by
              rintro D ⟨⟩
              exact ⟨Nat.le_refl _, fun j w' h => intf_whole hs' h, by simp⟩) h2 hg1
          revert this
          cases loop (visit p g f (i :: chain)) (dd.getD []).length (deps p g (g i))
            (some (dd.getD [])) s1 with
          | cycle => exact fun h => h
          | ub => exact fun h => h
          | deep => exact fun h => h
          | ok r =>
            rintro ⟨o2, fin2, k1, k2, k3, k4, k5⟩
            obtain ⟨s2, dd2⟩ := r
            cases dd with
            | none =>
              obtain ⟨fin', q1, q2, q3, q4, q5⟩ := fin_case none s2 none o2 fin2 k1 k2 k3 k4
                (Dedup.refl _ _ _ _ _)
              exact ⟨o2, fin', q1, q2, q3, q4, q5⟩
            | some D =>
              obtain ⟨fin', q1, q2, q3, q4, q5⟩ := fin_case (some D) s2 dd2 o2 fin2 k1 k2 k3 k4 k5
              exact ⟨o2, fin', q1, q2, q3, q4, q5⟩

/-- What has been processed is not in a cycle. -/
theorem fin_acyclic {fin : List (Fin n)}
    (h : ∀ a i b, fin = a ++ i :: b → ∀ j w, Uses p g (g i) (.lib j w) → j ∈ b) {i : Fin n}
    (hi : i ∈ fin) : ¬ Leads p g i i := by
  have later : ∀ i j, Leads p g i j → ∀ a b, fin = a ++ i :: b → j ∈ b := by
    intro i j hl
    induction hl with
    | one hu => intro a b hab; exact h a _ b hab _ _ hu
    | @more i j k w hu _ ih =>
      intro a b hab
      have hj := h a _ b hab _ _ hu
      obtain ⟨a2, b2, rfl⟩ := List.append_of_mem hj
      have := ih (a ++ i :: a2) b2 (by rw [hab]; simp)
      simp [this]
  intro hl
  -- The last one.
  have last : ∀ k (a b : List (Fin n)), b.length ≤ k → fin = a ++ i :: b → False := by
    intro k
    induction k with
    | zero =>
      intro a b hb hab
      have := later i i hl a b hab
      have hb' : b = [] := by simpa using hb
      subst hb'
      cases this
    | succ k ih =>
      intro a b hb hab
      have := later i i hl a b hab
      obtain ⟨a2, b2, rfl⟩ := List.append_of_mem this
      refine ih (a ++ i :: a2) b2 ?_ (by rw [hab]; simp)
      simp at hb
      omega
  obtain ⟨a, b, hab⟩ := List.append_of_mem hi
  exact last _ a b (Nat.le_refl _) hab

theorem linkLibs_spec {P : List Str}
    (hclean : ∀ i, Needed p g tops (.lib i true) → ¬ (g i).exports) :
    ∀ (ts : List (Fin n × Bool)), (∀ q ∈ ts, q ∈ tops) → ∀ (s : St n) (o : Order n) (fin : List (Fin n)),
      Rep P s o → Good p g tops [] o fin →
      Post p g tops (fun s' => ∃ o' fin', Rep P s' o' ∧ Good p g tops [] o' fin' ∧
        (∀ x ∈ things o, x ∈ things o') ∧ ∀ q ∈ ts, .lib q.1 q.2 ∈ things o') (linkLibs p g ts s) := by
  intro ts
  induction ts with
  | nil =>
    intro _ s o fin hr hg
    exact ⟨o, fin, hr, hg, fun _ h => h, by simp⟩
  | cons q ts ih =>
    intro hsub s o fin hr hg
    obtain ⟨i, w⟩ := q
    rw [linkLibs]
    have hcall : Call p g tops [] i w :=
      ⟨.top (hsub (i, w) (by simp)), .top (hsub (i, w) (by simp)), by simp⟩
    have := visit_spec (P := P) hclean (n + 1) [] i w none s o fin List.nodup_nil (by simp) hcall hr hg
    revert this
    cases visit p g (n + 1) [] i w none s with
    | cycle => exact fun h => h
    | ub => exact fun h => h
    | deep => exact fun h => h
    | ok r =>
      rintro ⟨o1, fin1, k1, k2, k3, k4, -⟩
      obtain ⟨s1, dd1⟩ := r
      simp only
      have := ih (fun q hq => hsub q (by simp [hq])) s1 o1 fin1 k1 k2
      revert this
      cases linkLibs p g ts s1 with
      | cycle => exact fun h => h
      | ub => exact fun h => h
      | deep => exact fun h => h
      | ok s2 =>
        rintro ⟨o2, fin2, q1, q2, q3, q4⟩
        refine ⟨o2, fin2, q1, q2, fun x hx => q3 x (k3.mem x hx), ?_⟩
        intro q hq
        rcases List.mem_cons.1 hq with rfl | hq
        · exact q3 _ (k4 _ (by simp)).mem
        · exact q4 q hq

theorem after_trans {L : List (Dep n)} {x y z : Dep n} (h1 : After L x y) (h2 : After L y z) :
    After L x z := by
  intro a b hl
  obtain ⟨b1, b2, rfl⟩ := List.append_of_mem (h1 a b hl)
  have := h2 (a ++ x :: b1) b2 (by rw [hl]; simp)
  simp [this]

theorem Needed.mono {ts ts' : List (Fin n × Bool)} (hs : ∀ q ∈ ts, q ∈ ts') {d : Dep n}
    (h : Needed p g ts d) : Needed p g ts' d := by
  induction h with
  | top h => exact .top (hs _ h)
  | step _ hu ih => exact .step ih hu

theorem linkLibs_layout {P : List Str} {cs : List Hashed}
    (hclean : ∀ i, Needed p g tops (.lib i true) → ¬ (g i).exports) :
    Post p g tops (fun s => (∃ args, s.args = P ++ args ∧ Layout p g tops args) ∧ ¬ Cyclic p g tops)
      (linkLibs p g tops ⟨[], P, cs⟩) := by
  have h0 : Rep (n := n) P ⟨[], P, cs⟩ [] :=
    ⟨by simp [flat], by simp [things], by simp, by simp [find]⟩
  have g0 : Good p g tops [] [] [] := ⟨by simp [things], by simp, by simp [things], by simp [things],
    by simp⟩
  have := linkLibs_spec (P := P) hclean tops (fun _ h => h) ⟨[], P, cs⟩ [] [] h0 g0
  revert this
  cases linkLibs p g tops ⟨[], P, cs⟩ with
  | cycle => exact fun h => h
  | ub => exact fun h => h
  | deep => exact fun h => h
  | ok s =>
    rintro ⟨o, fin, hr, hg, -, ht⟩
    have hall : ∀ d, Needed p g tops d → d ∈ things o := by
      intro d hd
      induction hd with
      | top h => exact ht _ h
      | step _ hu ih => exact (hg.deps _ _ ih (by simp) _ hu).1
    refine ⟨⟨flat o, hr.args, o, rfl, fun d => ⟨hg.need d, hall d⟩, hr.uniq, hg.pass, ?_⟩, ?_⟩
    · intro i w d hi hu r1 r2
      exact (hg.deps i w (hall _ hi) (by simp) d hu).2 r1 r2
    · rintro ⟨k, w, hk, hl⟩
      have := (hg.comp k w (hall _ hk)).resolve_left (by simp)
      exact fin_acyclic hg.topo this hl

/-! ## With object files -/

/-- The libraries at the beginning. -/
theorem split_libs (ts : List (Top n)) :
    ∃ ls : List (Fin n × Bool), ts = ls.map (fun q => .lib q.1 q.2) ∨
      ∃ o ts', ts = ls.map (fun q => .lib q.1 q.2) ++ .obj o :: ts' := by
  induction ts with
  | nil => exact ⟨[], .inl rfl⟩
  | cons t ts ih =>
    cases t with
    | obj o => exact ⟨[], .inr ⟨o, ts, rfl⟩⟩
    | lib i w =>
      obtain ⟨ls, h | ⟨o, ts', h⟩⟩ := ih
      · exact ⟨(i, w) :: ls, .inl (by rw [h]; rfl)⟩
      · exact ⟨(i, w) :: ls, .inr ⟨o, ts', by rw [h]; rfl⟩⟩

theorem link_append (ls : List (Fin n × Bool)) (ts : List (Top n)) (s : St n) :
    link p g (ls.map (fun q => .lib q.1 q.2) ++ ts) s =
      match linkLibs p g ls s with
      | .ok s => link p g ts s
      | .cycle => .cycle
      | .ub => .ub
      | .deep => .deep := by
  induction ls generalizing s with
  | nil => rfl
  | cons q ls ih =>
    obtain ⟨i, w⟩ := q
    simp only [List.map_cons, List.cons_append, link, linkLibs]
    cases visit p g (n + 1) [] i w none s with
    | ok r => simp only; exact ih _
    | cycle => rfl
    | ub => rfl
    | deep => rfl

theorem direct_libs (ls : List (Fin n × Bool)) (ts : List (Top n)) :
    Direct (ls.map (fun q => .lib q.1 q.2) ++ ts) = ls ++ Direct ts := by
  induction ls with
  | nil => rfl
  | cons q ls ih =>
    obtain ⟨i, w⟩ := q
    simp only [List.map_cons, List.cons_append]
    rw [← ih]
    rfl

theorem needed_append {l1 l2 : List (Fin n × Bool)} {d : Dep n} (h : Needed p g (l1 ++ l2) d) :
    Needed p g l1 d ∨ Needed p g l2 d := by
  induction h with
  | top h =>
    rcases List.mem_append.1 h with h | h
    · exact .inl (.top h)
    · exact .inr (.top h)
  | step _ hu ih =>
    rcases ih with ih | ih
    · exact .inl (.step ih hu)
    · exact .inr (.step ih hu)

theorem link_spec : ∀ (k : Nat) (ts : List (Top n)) (P : List Str) (cs : List Hashed), ts.length ≤ k →
    (∀ i, Needed p g (Direct ts) (.lib i true) → ¬ (g i).exports) →
    Post p g (Direct ts) (fun s => (∃ args, s.args = P ++ args ∧ Command p g ts args) ∧
      ¬ Cyclic p g (Direct ts)) (link p g ts ⟨[], P, cs⟩) := by
  intro k
  induction k with
  | zero =>
    intro ts P cs hk hc
    have : ts = [] := by simpa using hk
    subst this
    have hl := linkLibs_layout (p := p) (g := g) (tops := []) (P := P) (cs := cs) hc
    obtain ⟨⟨args, h1, h2⟩, h3⟩ := hl
    exact ⟨⟨args, h1, .libs (ls := []) h2⟩, h3⟩
  | succ k ih =>
    intro ts P cs hk hc
    obtain ⟨ls, rfl | ⟨o, ts', rfl⟩⟩ := split_libs ts
    · have hd : Direct (ls.map (fun q => Top.lib q.1 q.2)) = ls := by
        have := direct_libs ls []
        simpa [Direct] using this
      rw [hd] at hc ⊢
      have he := link_append (p := p) (g := g) ls [] ⟨[], P, cs⟩
      rw [List.append_nil] at he
      rw [he]
      have hl := linkLibs_layout (P := P) (cs := cs) hc
      revert hl
      cases linkLibs p g ls ⟨[], P, cs⟩ with
      | cycle => exact fun h => h
      | ub => exact fun h => h
      | deep => exact fun h => h
      | ok s =>
        rintro ⟨⟨args, h1, h2⟩, h3⟩
        exact ⟨⟨args, h1, .libs h2⟩, h3⟩
    · rw [direct_libs] at hc ⊢
      have hdo : Direct (Top.obj o :: ts') = Direct ts' := rfl
      rw [hdo] at hc ⊢
      rw [link_append]
      have hl := linkLibs_layout (p := p) (g := g) (tops := ls) (P := P) (cs := cs)
        (fun i hi => hc i (hi.mono fun q hq => by simp [hq]))
      revert hl
      cases linkLibs p g ls ⟨[], P, cs⟩ with
      | cycle =>
        rintro ⟨k, w, h1, h2⟩
        exact ⟨k, w, h1.mono (fun q hq => by simp [hq]), h2⟩
      | ub => exact fun h => h
      | deep => exact fun h => h
      | ok s =>
        rintro ⟨⟨args, h1, h2⟩, h3⟩
        simp only [link]
        have := ih ts' (s.args ++ [o]) (s.cs ++ [.file false o]) (by
          simp at hk; omega) (fun i hi => hc i (hi.mono fun q hq => by simp [hq]))
        revert this
        cases link p g ts' ⟨[], s.args ++ [o], s.cs ++ [.file false o]⟩ with
        | cycle =>
          rintro ⟨k, w, h1, h2⟩
          exact ⟨k, w, h1.mono (fun q hq => by simp [hq]), h2⟩
        | ub => exact fun h => h
        | deep => exact fun h => h
        | ok s' =>
          rintro ⟨⟨args', h4, h5⟩, h6⟩
          refine ⟨⟨args ++ o :: args', by rw [h4, h1]; simp, .obj h2 h5⟩, ?_⟩
          rintro ⟨k, w, c1, c2⟩
          rcases needed_append c1 with c1 | c1
          · exact h3 ⟨k, w, c1, c2⟩
          · exact h6 ⟨k, w, c1, c2⟩

end Verif.LinkOrder
