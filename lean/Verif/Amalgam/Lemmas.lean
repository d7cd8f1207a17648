import Verif.Amalgam.Model

/-!
# Amalgamation: lemmas
-/

namespace Verif.Amalgam

/-! ## Directories -/

theorem suffix_antisymm {a b : Dir} (h : a <:+ b) (h' : b <:+ a) : a = b :=
  h.eq_of_length (Nat.le_antisymm h.length_le h'.length_le)

theorem suffix_total {a b c : Dir} (h : a <:+ c) (h' : b <:+ c) : a <:+ b ∨ b <:+ a := by
  rcases Nat.le_total a.length b.length with hl | hl
  · exact .inl (List.suffix_of_suffix_length_le h h' hl)
  · exact .inr (List.suffix_of_suffix_length_le h' h hl)

theorem strict_iff {x : Dir} {c : String} {t : Dir} :
    (x <:+ c :: t ∧ x ≠ c :: t) ↔ x <:+ t := by
  constructor
  · rintro ⟨h, h'⟩
    rcases List.suffix_cons_iff.1 h with h | h
    · exact absurd h h'
    · exact h
  · intro h
    refine ⟨List.suffix_cons_iff.2 (.inr h), ?_⟩
    rintro rfl
    have := h.length_le
    simp at this
    omega

theorem refers_iff {r : Rel} {b d : Dir} : r.Refers b d ↔ resolve r b = .ok d := by
  unfold Rel.Refers resolve
  constructor
  · rintro ⟨a, c, rfl, h, rfl⟩
    rw [if_pos (by simp; omega), ← h]
    simp
  · intro h
    by_cases hl : r.up ≤ b.length
    · rw [if_pos hl] at h
      cases h
      exact ⟨b.take r.up, b.drop r.up, (List.take_append_drop _ _).symm,
        by rw [List.length_take]; omega, rfl⟩
    · rw [if_neg hl] at h; cases h

theorem relative_refers {d out : Dir} (h : d <:+ out) : (relative d out).Refers out d := by
  obtain ⟨a, rfl⟩ := h
  exact ⟨a, d, rfl, by simp [relative], rfl⟩

theorem refers_unique {r : Rel} {b d d' : Dir} (h : r.Refers b d) (h' : r.Refers b d') : d = d' := by
  rw [refers_iff] at h h'
  rw [h] at h'; cases h'; rfl

/-! ## What is on disk -/

theorem isRoot_iff {k : Disk} {d : Dir} : isRoot k d = true ↔ k.Marked d := by
  unfold isRoot Disk.Marked; rw [Bool.or_eq_true]

theorem findOut_iff (k : Disk) (d : Dir) : ∀ b : Dir, findOut k b = some d ↔
    d <:+ b ∧ d ≠ [] ∧ k.Marked d ∧ (∀ x, d <:+ x → x <:+ b → k.home ≠ some x) ∧
      ∀ x, d <:+ x → x <:+ b → k.Marked x → x = d := by
  intro b
  induction b with
  | nil =>
    constructor
    · intro h; cases h
    · rintro ⟨h, h', _⟩
      exact absurd (List.suffix_nil.1 h) h'
  | cons c b ih =>
    rw [findOut]
    by_cases hh : k.home = some (c :: b)
    · rw [if_pos (by simp [hh])]
      constructor
      · intro h; cases h
      · rintro ⟨h1, _, _, h4, _⟩
        exact absurd hh (h4 _ h1 (List.suffix_refl _))
    · rw [if_neg (by simpa using hh)]
      by_cases hm : isRoot k (c :: b) = true
      · rw [if_pos hm]
        rw [isRoot_iff] at hm
        constructor
        · intro h
          cases h
          refine ⟨List.suffix_refl _, by simp, hm, ?_, fun x h1 h2 _ => suffix_antisymm h2 h1⟩
          intro x h1 h2
          rw [suffix_antisymm h2 h1]; exact hh
        · rintro ⟨h1, _, _, _, h5⟩
          rw [h5 _ h1 (List.suffix_refl _) hm]
      · rw [if_neg hm, ih]
        rw [isRoot_iff] at hm
        constructor
        · rintro ⟨h1, h2, h3, h4, h5⟩
          refine ⟨List.suffix_cons_iff.2 (.inr h1), h2, h3, ?_, ?_⟩
          · intro x hx hx'
            rcases List.suffix_cons_iff.1 hx' with rfl | hx'
            · exact hh
            · exact h4 x hx hx'
          · intro x hx hx' hxm
            rcases List.suffix_cons_iff.1 hx' with rfl | hx'
            · exact absurd hxm hm
            · exact h5 x hx hx' hxm
        · rintro ⟨h1, h2, h3, h4, h5⟩
          refine ⟨?_, h2, h3, fun x hx hx' => h4 x hx (List.suffix_cons_iff.2 (.inr hx')),
            fun x hx hx' => h5 x hx (List.suffix_cons_iff.2 (.inr hx'))⟩
          rcases List.suffix_cons_iff.1 h1 with rfl | h1
          · exact absurd h3 hm
          · exact h1

theorem outside_iff (k : Disk) (out d : Dir) : findOut k out.tail = some d ↔ k.Outside out d := by
  rw [findOut_iff]
  unfold Disk.Outside
  cases out with
  | nil =>
    constructor
    · rintro ⟨h, h', _⟩; exact absurd (List.suffix_nil.1 h) h'
    · rintro ⟨h, h', _⟩; exact absurd (List.suffix_nil.1 h) h'
  | cons c t =>
    rw [List.tail_cons]
    constructor
    · rintro ⟨h1, h2, h3, h4, h5⟩
      obtain ⟨a, b⟩ := (strict_iff (c := c)).2 h1
      exact ⟨a, b, h2, h3, fun x hx hx' hx'' => h4 x hx (strict_iff.1 ⟨hx', hx''⟩),
        fun x hx hx' hx'' => h5 x hx (strict_iff.1 ⟨hx', hx''⟩)⟩
    · rintro ⟨h1, h1', h2, h3, h4, h5⟩
      refine ⟨strict_iff.1 ⟨h1, h1'⟩, h2, h3, ?_, ?_⟩
      · intro x hx hx'
        obtain ⟨a, b⟩ := (strict_iff (c := c)).2 hx'
        exact h4 x hx a b
      · intro x hx hx'
        obtain ⟨a, b⟩ := (strict_iff (c := c)).2 hx'
        exact h5 x hx a b

/-! ## Projects that are loaded -/

theorem find_some {st : List Proj} {d : Dir} {p : Proj} (h : find st d = some p) :
    p ∈ st ∧ p.out = d := by
  have := List.find?_some h
  exact ⟨List.mem_of_find?_eq_some h, by simpa using this⟩

theorem find_none {st : List Proj} {d : Dir} (h : find st d = none) : ∀ p ∈ st, p.out ≠ d := by
  intro p hp
  have := List.find?_eq_none.1 h p hp
  simpa using this

theorem outerRoot_some {st : List Proj} {a : Proj} : ∀ {out : Dir}, outerRoot st out = some a →
    a ∈ st ∧ a.out <:+ out ∧ a.out ≠ out ∧
      ∀ b ∈ st, b.out <:+ out → b.out ≠ out → b.out <:+ a.out := by
  intro out
  induction out with
  | nil => intro h; cases h
  | cons c t ih =>
    intro h
    rw [outerRoot] at h
    cases hf : find st t with
    | some p =>
      rw [hf] at h
      cases h
      obtain ⟨h1, rfl⟩ := find_some hf
      obtain ⟨x, y⟩ := (strict_iff (c := c)).2 (List.suffix_refl a.out)
      exact ⟨h1, x, y, fun b _ hb hb' => strict_iff.1 ⟨hb, hb'⟩⟩
    | none =>
      rw [hf] at h
      obtain ⟨h1, h2, h3, h4⟩ := ih h
      obtain ⟨x, y⟩ := (strict_iff (c := c)).2 h2
      refine ⟨h1, x, y, fun b hb hb1 hb2 => ?_⟩
      exact h4 b hb (strict_iff.1 ⟨hb1, hb2⟩) (find_none hf b hb)

theorem outerRoot_none {st : List Proj} : ∀ {out : Dir}, outerRoot st out = none →
    ∀ b ∈ st, b.out <:+ out → b.out = out := by
  intro out
  induction out with
  | nil => intro _ b _ h; exact List.suffix_nil.1 h
  | cons c t ih =>
    intro h b hb hs
    rw [outerRoot] at h
    cases hf : find st t with
    | some p => rw [hf] at h; cases h
    | none =>
      rw [hf] at h
      rcases List.suffix_cons_iff.1 hs with hs | hs
      · exact hs
      · exact absurd (ih h b hb hs) (find_none hf b hb)

/-- What does not change. -/
def core (p : Proj) : Dir × Dir × Bool × Option Rel := (p.out, p.src, p.simple, p.amalg)

theorem core_eq {p q : Proj} (h : core p = core q) :
    p.out = q.out ∧ p.src = q.src ∧ p.simple = q.simple ∧ p.amalg = q.amalg := by
  simp only [core, Prod.mk.injEq] at h; exact h

/-- Projects are only added. -/
def Ext (st st' : List Proj) : Prop := st.map core <+: st'.map core

theorem Ext.refl (st : List Proj) : Ext st st := List.prefix_refl _
theorem Ext.trans {a b c : List Proj} (h : Ext a b) (h' : Ext b c) : Ext a c :=
  List.IsPrefix.trans h h'

theorem Ext.mem {st st' : List Proj} (h : Ext st st') {p : Proj} (hp : p ∈ st) :
    ∃ q ∈ st', core q = core p := by
  have := h.subset (List.mem_map_of_mem hp)
  rw [List.mem_map] at this
  exact this

theorem ext_append (st l : List Proj) : Ext st (st ++ l) := by
  unfold Ext; rw [List.map_append]; exact List.prefix_append _ _

theorem setStrong_core (st : List Proj) (d s : Dir) : (setStrong st d s).map core = st.map core := by
  unfold setStrong
  rw [List.map_map]
  apply List.map_congr_left
  intro p _
  show core (if p.out == d then { p with strong := some s } else p) = core p
  split <;> rfl

theorem ext_of_eq {st st' : List Proj} (h : st'.map core = st.map core) : Ext st st' := by
  unfold Ext; rw [h]; exact List.prefix_refl _

/-- A project is there once. -/
def Uniq (st : List Proj) : Prop := (st.map Proj.out).Nodup

theorem outs_core (st : List Proj) : st.map Proj.out = (st.map core).map Prod.fst := by
  rw [List.map_map]; rfl

theorem uniq_eq {st : List Proj} (h : Uniq st) {p q : Proj} (hp : p ∈ st) (hq : q ∈ st)
    (ho : p.out = q.out) : p = q := by
  unfold Uniq at h
  induction st with
  | nil => cases hp
  | cons a st ih =>
    rw [List.map_cons, List.nodup_cons] at h
    cases hp with
    | head =>
      cases hq with
      | head => rfl
      | tail _ hq => exact absurd (ho ▸ List.mem_map_of_mem hq) h.1
    | tail _ hp =>
      cases hq with
      | head => exact absurd (ho ▸ List.mem_map_of_mem hp) h.1
      | tail _ hq => exact ih h.2 hp hq

theorem In.ext {st st' : List Proj} (h : Ext st st') {p o : Proj} (hi : In st p o) :
    ∃ p' o', In st' p' o' ∧ core p' = core p ∧ core o' = core o := by
  obtain ⟨hp, ho, r, hr, hr'⟩ := hi
  obtain ⟨p', hp', e1⟩ := h.mem hp
  obtain ⟨o', ho', e2⟩ := h.mem ho
  obtain ⟨a1, a2, a3, a4⟩ := core_eq e1
  obtain ⟨b1, b2, b3, b4⟩ := core_eq e2
  exact ⟨p', o', ⟨hp', ho', r, a4.trans hr, by rw [a1, b1]; exact hr'⟩, e1, e2⟩

theorem Strong.ext {st st' : List Proj} (h : Ext st st') {d s : Dir} (hs : Strong st d s) :
    Strong st' d s := by
  induction hs with
  | last hp ha =>
    obtain ⟨p', hp', e⟩ := h.mem hp
    obtain ⟨a1, a2, a3, a4⟩ := core_eq e
    rw [← a1]
    exact .last hp' (a4.trans ha)
  | apart hi hn =>
    obtain ⟨p', o', hi', e1, e2⟩ := hi.ext h
    rw [← (core_eq e1).1]
    exact .apart hi' (by rw [(core_eq e1).2.1, (core_eq e2).2.1]; exact hn)
  | within hi hn _ ih =>
    obtain ⟨p', o', hi', e1, e2⟩ := hi.ext h
    rw [← (core_eq e1).1]
    exact .within hi' (by rw [(core_eq e1).2.1, (core_eq e2).2.1]; exact hn)
      (by rw [(core_eq e2).1]; exact ih)

theorem Chain.ext {st st' : List Proj} (h : Ext st st') {d : Dir} {c : List Dir}
    (hs : Chain st d c) : Chain st' d c := by
  induction hs with
  | last hp ha =>
    obtain ⟨p', hp', e⟩ := h.mem hp
    obtain ⟨a1, a2, a3, a4⟩ := core_eq e
    rw [← a1]
    exact .last hp' (a4.trans ha)
  | next hi _ ih =>
    obtain ⟨p', o', hi', e1, e2⟩ := hi.ext h
    rw [← (core_eq e1).1]
    exact .next hi' (by rw [(core_eq e2).1]; exact ih)

theorem Chain.mem {st : List Proj} {d : Dir} {c : List Dir} (h : Chain st d c) : d ∈ c := by
  induction h with
  | last => exact .head _
  | next => exact .head _

/-- Each project was entered by `bootstrap` at some point. -/
def Made (k : Disk) (st : List Proj) : Prop :=
  ∀ p ∈ st, p.simple = (k.boot p.src).isNone ∧
    ∃ st0, Ext st0 st ∧ find st0 p.out = none ∧
      amalgamation k st0 p.out (k.boot p.src) = .ok p.amalg

/-- What is recorded of strong amalgamation is so. -/
def StrongOk (st : List Proj) : Prop := ∀ p ∈ st, ∀ s, p.strong = some s → Strong st p.out s

structure Inv (k : Disk) (st : List Proj) : Prop where
  uniq : Uniq st
  made : Made k st
  strong : StrongOk st

theorem inv_nil (k : Disk) : Inv k [] :=
  ⟨List.nodup_nil, fun p hp => (by cases hp), fun p hp => (by cases hp)⟩

theorem bootstrap_inv {k : Disk} {st st' : List Proj} {out src : Dir}
    (h : bootstrap k st out src = .ok st') (hi : Inv k st) :
    Inv k st' ∧ Ext st st' ∧ ∃ p ∈ st', p.out = out ∧ (find st out = none → p.src = src) := by
  unfold bootstrap at h
  cases hf : find st out with
  | some q =>
    rw [hf] at h
    cases h
    obtain ⟨h1, h2⟩ := find_some hf
    exact ⟨hi, .refl _, q, h1, h2, fun hh => (by cases hh)⟩
  | none =>
    rw [hf] at h
    dsimp only at h
    cases ha : amalgamation k st out (k.boot src) with
    | error x => rw [ha] at h; cases h
    | ok a =>
      rw [ha] at h
      cases h
      have he := ext_append st [⟨out, src, (k.boot src).isNone, a, none⟩]
      refine ⟨⟨?_, ?_, ?_⟩, he, _, List.mem_append_right _ (.head _), rfl, fun _ => rfl⟩
      · unfold Uniq
        rw [List.map_append, List.nodup_append]
        refine ⟨hi.uniq, by simp, ?_⟩
        intro x hx y hy
        rw [List.mem_map] at hx
        obtain ⟨p, hp, rfl⟩ := hx
        simp only [List.map_cons, List.map_nil, List.mem_singleton] at hy
        subst hy
        exact find_none hf p hp
      · intro p hp
        rcases List.mem_append.1 hp with hp | hp
        · obtain ⟨h1, st0, h2, h3, h4⟩ := hi.made p hp
          exact ⟨h1, st0, h2.trans he, h3, h4⟩
        · rw [List.mem_singleton] at hp
          subst hp
          exact ⟨rfl, st, he, hf, ha⟩
      · intro p hp s hs
        rcases List.mem_append.1 hp with hp | hp
        · exact (hi.strong p hp s hs).ext he
        · rw [List.mem_singleton] at hp
          subst hp
          cases hs

theorem setStrong_mem {st : List Proj} {d s : Dir} {p : Proj} (h : p ∈ setStrong st d s) :
    ∃ q ∈ st, core p = core q ∧ ((q.out = d ∧ p.strong = some s) ∨ (q.out ≠ d ∧ p = q)) := by
  unfold setStrong at h
  rw [List.mem_map] at h
  obtain ⟨q, hq, rfl⟩ := h
  refine ⟨q, hq, ?_⟩
  by_cases hd : q.out = d
  · rw [if_pos (by simpa using hd)]; exact ⟨rfl, .inl ⟨hd, rfl⟩⟩
  · rw [if_neg (by simpa using hd)]; exact ⟨rfl, .inr ⟨hd, rfl⟩⟩

theorem made_of_core {k : Disk} {st st' : List Proj} (hc : st'.map core = st.map core)
    (h : Made k st) : Made k st' := by
  intro p hp
  have : core p ∈ st.map core := hc ▸ List.mem_map_of_mem hp
  rw [List.mem_map] at this
  obtain ⟨q, hq, e⟩ := this
  obtain ⟨a1, a2, a3, a4⟩ := core_eq e
  obtain ⟨h1, st0, h2, h3, h4⟩ := h q hq
  rw [a2, a3] at h1
  rw [a1] at h3
  rw [a1, a2, a4] at h4
  exact ⟨h1, st0, h2.trans (ext_of_eq hc), h3, h4⟩

theorem setStrong_inv {k : Disk} {st : List Proj} {d s : Dir} (hi : Inv k st)
    (hs : Strong st d s) : Inv k (setStrong st d s) := by
  have hc := setStrong_core st d s
  refine ⟨?_, made_of_core hc hi.made, ?_⟩
  · unfold Uniq; rw [outs_core, hc, ← outs_core]; exact hi.uniq
  · intro p hp s' hs'
    obtain ⟨q, hq, e, ⟨h1, h2⟩ | ⟨h1, h2⟩⟩ := setStrong_mem hp
    · rw [h2] at hs'
      cases hs'
      rw [(core_eq e).1, h1]
      exact hs.ext (ext_of_eq hc)
    · subst h2
      exact (hi.strong p hq s' hs').ext (ext_of_eq hc)

/-- Loading what amalgamates a project. -/
theorem outer_inv {k : Disk} : ∀ (n : Nat) {st st' : List Proj} {i : Dir},
    outer k n st i = .ok st' → Inv k st →
    Inv k st' ∧ Ext st st' ∧ ∃ c, Chain st' i c ∧
      ∀ p ∈ st', p.out ∈ c → Strong st' p.out (strongScope p) := by
  intro n
  induction n with
  | zero => intro st st' i h; cases h
  | succ n ih =>
    intro st st' i h hi
    rw [outer] at h
    cases hf : find st i with
    | none => rw [hf] at h; cases h
    | some p =>
      rw [hf] at h
      dsimp only at h
      obtain ⟨hp, rfl⟩ := find_some hf
      cases ha : p.amalg with
      | none =>
        rw [ha] at h
        cases h
        refine ⟨hi, .refl _, _, .last hp ha, ?_⟩
        intro q hq hqo
        rw [List.mem_singleton] at hqo
        have := uniq_eq hi.uniq hq hp hqo
        subst this
        unfold strongScope
        cases hs : q.strong with
        | none => exact .last hp ha
        | some s => exact hi.strong q hq s hs
      | some r =>
        rw [ha] at h
        dsimp only at h
        cases hr : resolve r p.out with
        | error x => rw [hr] at h; cases h
        | ok o =>
          rw [hr] at h
          dsimp only at h
          cases hsrc : outerSrc k st r p.src o with
          | error x => rw [hsrc] at h; cases h
          | ok s =>
            rw [hsrc] at h
            dsimp only at h
            cases hb : bootstrap k st o s with
            | error x => rw [hb] at h; cases h
            | ok st1 =>
              rw [hb] at h
              dsimp only at h
              obtain ⟨hi1, he1, -⟩ := bootstrap_inv hb hi
              cases ho : outer k n st1 o with
              | error x => rw [ho] at h; cases h
              | ok st2 =>
                rw [ho] at h
                dsimp only at h
                obtain ⟨hi2, he2, c, hc, hst⟩ := ih ho hi1
                cases hq : find st2 o with
                | none => rw [hq] at h; cases h
                | some q =>
                  rw [hq] at h
                  dsimp only at h
                  obtain ⟨hq1, rfl⟩ := find_some hq
                  obtain ⟨p', hp', ep⟩ := (he1.trans he2).mem hp
                  obtain ⟨a1, a2, a3, a4⟩ := core_eq ep
                  have hin : In st2 p' q :=
                    ⟨hp', hq1, r, a4.trans ha, refers_iff.2 (by rw [a1]; exact hr)⟩
                  have hqc : q.out ∈ c := by
                    exact hc.mem
                  have hqs := hst q hq1 hqc
                  by_cases hsub : q.src.isSuffixOf p.src = true
                  · rw [if_pos hsub] at h
                    cases h
                    have hS : Strong st2 p.out (strongScope q) := by
                      rw [← a1]
                      exact .within hin (by rw [a2]; exact List.isSuffixOf_iff_suffix.1 hsub) hqs
                    have hc2 := setStrong_core st2 p.out (strongScope q)
                    have he3 := ext_of_eq hc2
                    refine ⟨setStrong_inv hi2 hS, (he1.trans he2).trans he3, p.out :: c, ?_, ?_⟩
                    · rw [← a1]
                      exact (Chain.next hin hc).ext (a1 ▸ he3)
                    · intro x hx hxc
                      obtain ⟨y, hy, e, ⟨h1, h2⟩ | ⟨h1, h2⟩⟩ := setStrong_mem hx
                      · rw [(core_eq e).1, h1]
                        unfold strongScope at hS ⊢
                        rw [h2]
                        exact hS.ext he3
                      · subst h2
                        rcases List.mem_cons.1 hxc with hxc | hxc
                        · exact absurd hxc h1
                        · exact (hst x hy hxc).ext he3
                  · rw [if_neg hsub] at h
                    cases h
                    refine ⟨hi2, he1.trans he2, p.out :: c, by rw [← a1]; exact .next hin hc, ?_⟩
                    intro x hx hxc
                    cases hxc' : decide (x.out = p.out) with
                    | true =>
                      have hxo := of_decide_eq_true hxc'
                      have := uniq_eq hi2.uniq hx hp' (hxo.trans a1.symm)
                      subst this
                      unfold strongScope
                      cases hs : x.strong with
                      | none =>
                        exact .apart hin (by
                          rw [a2]; exact fun hh => hsub (List.isSuffixOf_iff_suffix.2 hh))
                      | some s => exact hi2.strong x hx s hs
                    | false =>
                      have hxo := of_decide_eq_false hxc'
                      rcases List.mem_cons.1 hxc with hxc | hxc
                      · exact absurd hxc hxo
                      · exact hst x hx hxc

theorem step_inv {k : Disk} {n : Nat} {st st' : List Proj} {o : Op} (h : step k n st o = .ok st')
    (hi : Inv k st) : Inv k st' ∧ Ext st st' := by
  cases o with
  | boot out src => obtain ⟨a, b, _⟩ := bootstrap_inv h hi; exact ⟨a, b⟩
  | outer i => obtain ⟨a, b, _⟩ := outer_inv n h hi; exact ⟨a, b⟩

theorem run_inv {k : Disk} {n : Nat} : ∀ {os : List Op} {st st' : List Proj},
    run k n os st = .ok st' → Inv k st → Inv k st' ∧ Ext st st' := by
  intro os
  induction os with
  | nil => intro st st' h hi; cases h; exact ⟨hi, .refl _⟩
  | cons o os ih =>
    intro st st' h hi
    rw [run] at h
    cases hs : step k n st o with
    | error x => rw [hs] at h; cases h
    | ok st1 =>
      rw [hs] at h
      obtain ⟨h1, h2⟩ := step_inv hs hi
      obtain ⟨h3, h4⟩ := ih h h1
      exact ⟨h3, h2.trans h4⟩

end Verif.Amalgam
