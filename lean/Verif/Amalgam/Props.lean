import Verif.Amalgam.Lemmas

/-!
# Amalgamation: properties

Whatever projects are loaded in whatever order, what amalgamates a project is determined by what is
on disk (if the projects can be told from that), each project is loaded once, and with a project
everything that amalgamates it is, up to the last.
-/

namespace Verif.Amalgam

/-! ## An example: `/w/all` with `/w/all/hello` and its `/w/all/hello/tests`; the second is
configured in `/w/out/hello` -/

def exDisk : Disk where
  boot d :=
    if d ∈ [["all", "w"], ["hello", "all", "w"], ["tests", "hello", "all", "w"]] then some .unset
    else if d = ["alone", "all", "w"] then some .disabled
    else if d = ["deep", "x", "all", "w"] then some (.to ⟨2, []⟩)
    else none
  conf d := if d = ["hello", "out", "w"] then some ["hello", "all", "w"] else none
  home := some ["w"]

/-- The projects. -/
def stOf : Except Err (List Proj) → Option (List Proj)
  | .ok st => some st
  | .error _ => none

/-- The failure. -/
def errOf : Except Err (List Proj) → Option Err
  | .ok _ => none
  | .error x => some x

/-- Loading the tests loads everything. -/
example : stOf (run exDisk 9 [.boot ["tests", "hello", "all", "w"] ["tests", "hello", "all", "w"],
      .outer ["tests", "hello", "all", "w"]] []) =
    some [⟨["tests", "hello", "all", "w"], ["tests", "hello", "all", "w"], false, some ⟨1, []⟩,
        some ["all", "w"]⟩,
      ⟨["hello", "all", "w"], ["hello", "all", "w"], false, some ⟨1, []⟩, some ["all", "w"]⟩,
      ⟨["all", "w"], ["all", "w"], false, none, none⟩] := by decide +kernel

/-- Those of the other output directory are amalgamated by `hello` there, which is by none. -/
example : stOf (run exDisk 9 [.boot ["tests", "hello", "out", "w"] ["tests", "hello", "all", "w"],
      .outer ["tests", "hello", "out", "w"]] []) =
    some [⟨["tests", "hello", "out", "w"], ["tests", "hello", "all", "w"], false, some ⟨1, []⟩,
        some ["hello", "out", "w"]⟩,
      ⟨["hello", "out", "w"], ["hello", "all", "w"], false, none, none⟩] := by decide +kernel

/-! ## What amalgamates a project -/

private theorem proper_core {k : Disk} {p q : Proj} (h : core p = core q) (hp : Proper k p) :
    Proper k q := by
  obtain ⟨a1, a2, a3, a4⟩ := core_eq h
  unfold Proper at hp ⊢
  rw [← a1, ← a3]; exact hp

private theorem unset_wants {k : Disk} {st : List Proj} {out : Dir} {a : Option Rel}
    (hp : ∀ q ∈ st, Proper k q) (h : amalgamation k st out (some .unset) = .ok a) :
    (∃ r d, a = some r ∧ r.Refers out d ∧ r.down = [] ∧ k.Outside out d) ∨
      (a = none ∧ ∀ d, ¬ k.Outside out d) := by
  have key : ∀ d, k.Outside out d → (∃ r e, some (relative d out) = some r ∧ r.Refers out e ∧
      r.down = [] ∧ k.Outside out e) :=
    fun d hd => ⟨_, d, rfl, relative_refers hd.1, rfl, hd⟩
  simp only [amalgamation] at h
  cases hf : findOut k out.tail with
  | none =>
    have hno : ∀ d, ¬ k.Outside out d := by
      intro d hd
      rw [← outside_iff, hf] at hd; cases hd
    rw [hf] at h
    dsimp only at h
    cases ho : outerRoot st out with
    | none => rw [ho] at h; cases h; exact .inr ⟨rfl, hno⟩
    | some b =>
      rw [ho] at h
      dsimp only at h
      obtain ⟨hb, hb1, hb2, -⟩ := outerRoot_some ho
      rcases hp b hb with ⟨h1, h2, h3, h4⟩ | ⟨h1, _⟩
      · exfalso
        -- It is marked, so there is an innermost one.
        have : ∀ t : Dir, b.out <:+ t → t <:+ out → findOut k t ≠ none := by
          intro t
          induction t with
          | nil => intro hbt _; exact absurd (List.suffix_nil.1 hbt) h3
          | cons c t ih =>
            intro hbt hto
            rw [findOut]
            have hh : ¬ (k.home == some (c :: t)) = true := by
              intro hh
              exact h4 _ (by simpa using hh) hbt
            rw [if_neg hh]
            by_cases hm : isRoot k (c :: t) = true
            · rw [if_pos hm]; simp
            · rw [if_neg hm]
              apply ih
              · rcases List.suffix_cons_iff.1 hbt with hbt | hbt
                · rw [hbt] at h2
                  exact absurd (isRoot_iff.2 h2) hm
                · exact hbt
              · exact (List.suffix_cons c t).trans hto
        cases out with
        | nil => exact hb2 (List.suffix_nil.1 hb1)
        | cons c t => exact this t (strict_iff.1 ⟨hb1, hb2⟩) (List.suffix_cons c t) hf
      · rw [h1] at h
        cases h
        exact .inr ⟨rfl, hno⟩
  | some d =>
    rw [hf] at h
    dsimp only at h
    have hd := (outside_iff k out d).1 hf
    cases ho : outerRoot st out with
    | none =>
      rw [ho] at h; cases h; exact .inl (key d hd)
    | some b =>
      rw [ho] at h
      dsimp only at h
      obtain ⟨hb, hb1, hb2, -⟩ := outerRoot_some ho
      by_cases hc : (d != b.out && b.out.isSuffixOf d) = true
      · rw [if_pos hc] at h; cases h; exact .inl (key d hd)
      · rw [if_neg hc] at h
        have hdb : d = b.out ∨ (d <:+ b.out ∧ d ≠ b.out) := by
          by_cases he : d = b.out
          · exact .inl he
          · rcases suffix_total hd.1 hb1 with hs | hs
            · exact .inr ⟨hs, he⟩
            · exact absurd (by simp [he, List.isSuffixOf_iff_suffix.2 hs]) hc
        rcases hp b hb with ⟨h1, h2, h3, h4⟩ | ⟨h1, h2, h3⟩
        · rw [h1] at h
          simp only [Bool.false_eq_true, if_false] at h
          cases h
          have : d = b.out := by
            rcases hdb with he | ⟨hs, _⟩
            · exact he
            · exact (hd.2.2.2.2.2 b.out hs hb1 hb2 h2).symm
          subst this
          exact .inl (key _ hd)
        · exfalso
          rcases hdb with he | ⟨hs, he⟩
          · rw [he] at hd; exact h2 hd.2.2.2.1
          · apply h3 d
            refine ⟨hs, he, hd.2.2.1, hd.2.2.2.1, ?_, ?_⟩
            · intro x hx hx' _
              refine hd.2.2.2.2.1 x hx (hx'.trans hb1) ?_
              rintro rfl
              exact hb2 (suffix_antisymm hb1 hx')
            · intro x hx hx' _
              refine hd.2.2.2.2.2 x hx (hx'.trans hb1) ?_
              rintro rfl
              exact hb2 (suffix_antisymm hb1 hx')

/-- Whatever has been loaded and in whatever order, provided that the projects can be told from what
is on disk: what amalgamates a project is what it specifies, or else the nearest project outside. -/
theorem wanted_partial {k : Disk} {n : Nat} {os : List Op} {st : List Proj}
    (h : run k n os [] = .ok st) (hp : ∀ a ∈ st, Proper k a) :
    ∀ p ∈ st, Wants k p.out p.src p.amalg := by
  intro p hpm
  obtain ⟨hi, _⟩ := run_inv h (inv_nil k)
  obtain ⟨_, st0, he, _, ha⟩ := hi.made p hpm
  have hp0 : ∀ q ∈ st0, Proper k q := by
    intro q hq
    obtain ⟨q', hq', e⟩ := he.mem hq
    exact proper_core e (hp q' hq')
  unfold Wants
  cases hb : k.boot p.src with
  | none =>
    rw [hb] at ha
    dsimp only
    simp only [amalgamation, Except.ok.injEq] at ha
    exact ha.symm
  | some s =>
    rw [hb] at ha
    cases s with
    | disabled =>
      dsimp only
      simp only [amalgamation, Except.ok.injEq] at ha
      exact ha.symm
    | absolute => simp [amalgamation] at ha
    | to r =>
      dsimp only
      simp only [amalgamation] at ha
      cases ho : outerRoot st0 p.out with
      | none =>
        rw [ho] at ha
        simp only [Except.ok.injEq] at ha
        exact ha.symm
      | some a =>
        rw [ho] at ha
        dsimp only at ha
        cases hr : resolve r p.out with
        | error x => rw [hr] at ha; cases ha
        | ok d =>
          rw [hr] at ha
          dsimp only at ha
          split at ha
          · simp only [Except.ok.injEq] at ha; exact ha.symm
          · cases ha
    | unset => exact unset_wants hp0 ha

private theorem wants_unique {k : Disk} {out src : Dir} {a b : Option Rel} (ha : Wants k out src a)
    (hb : Wants k out src b) : a = b := by
  unfold Wants at ha hb
  cases hs : k.boot src with
  | none => rw [hs] at ha hb; rw [ha, hb]
  | some s =>
    rw [hs] at ha hb
    cases s with
    | disabled => rw [ha, hb]
    | absolute => exact ha.elim
    | to r => rw [ha, hb]
    | unset =>
      rcases ha with ⟨r, d, rfl, hr, hd, ho⟩ | ⟨rfl, hn⟩
      · rcases hb with ⟨r', d', rfl, hr', hd', ho'⟩ | ⟨_, hn⟩
        · have e : d = d' := by
            rw [← outside_iff] at ho ho'
            rw [ho] at ho'; cases ho'; rfl
          subst e
          obtain ⟨x, y, h1, h2, h3⟩ := hr
          obtain ⟨x', y', h1', h2', h3'⟩ := hr'
          rw [hd] at h3
          rw [hd'] at h3'
          simp only [List.nil_append] at h3 h3'
          subst h3
          have hl : r.up = r'.up := by
            have l1 := congrArg List.length h1
            have l2 := congrArg List.length h1'
            rw [List.length_append] at l1 l2
            have l3 := congrArg List.length h3'
            omega
          cases r; cases r'
          simp only at hl hd hd'
          rw [hl, hd, hd']
        · exact absurd ho (hn d)
      · rcases hb with ⟨r', d', rfl, hr', hd', ho'⟩ | ⟨rfl, _⟩
        · exact absurd ho' (hn d')
        · rfl

/-- So it does not depend on what is loaded and in which order. -/
theorem any_order_partial {k : Disk} {n n' : Nat} {os os' : List Op} {st st' : List Proj}
    (h : run k n os [] = .ok st) (h' : run k n' os' [] = .ok st')
    (hp : ∀ a ∈ st, Proper k a) (hp' : ∀ a ∈ st', Proper k a) {p p' : Proj} (hm : p ∈ st)
    (hm' : p' ∈ st') (ho : p.out = p'.out) (hs : p.src = p'.src) : p.amalg = p'.amalg :=
  wants_unique (wanted_partial h hp p hm) (ho ▸ hs ▸ wanted_partial h' hp' p' hm')

example : ∃ st, run exDisk 9 [.boot ["tests", "hello", "all", "w"] ["tests", "hello", "all", "w"],
      .outer ["tests", "hello", "all", "w"]] [] = .ok st ∧ st.length = 3 ∧
      ∀ a ∈ st, Proper exDisk a := by
  refine ⟨_, rfl, rfl, ?_⟩
  intro a ha
  left
  have hm : ∀ x ∈ [["tests", "hello", "all", "w"], ["hello", "all", "w"], ["all", "w"]],
      exDisk.Marked x ∧ x ≠ [] ∧ ∀ h, exDisk.home = some h → ¬ x <:+ h := by
    intro x hx
    simp only [List.mem_cons, List.not_mem_nil, or_false] at hx
    refine ⟨?_, ?_, ?_⟩
    · rcases hx with rfl | rfl | rfl <;> exact .inl (by decide +kernel)
    · rcases hx with rfl | rfl | rfl <;> simp
    · intro h hh
      cases hh
      intro hs
      have := hs.length_le
      rcases hx with rfl | rfl | rfl <;> simp at this
  rcases List.mem_cons.1 ha with rfl | ha
  · exact ⟨rfl, (hm _ (.head _)).1, (hm _ (.head _)).2⟩
  rcases List.mem_cons.1 ha with rfl | ha
  · exact ⟨rfl, (hm _ (.tail _ (.head _))).1, (hm _ (.tail _ (.head _))).2⟩
  rcases List.mem_cons.1 ha with rfl | ha
  · exact ⟨rfl, (hm _ (.tail _ (.tail _ (.head _)))).1, (hm _ (.tail _ (.tail _ (.head _)))).2⟩
  · cases ha

/-- A project cannot be loaded exactly if it specifies an absolute directory, or one that is not
within the projects outside that are already loaded. -/
theorem fails_iff {k : Disk} {st : List Proj} {out src : Dir} (hn : ∀ p ∈ st, p.out ≠ out) :
    (∃ x, bootstrap k st out src = .error x) ↔
      k.boot src = some .absolute ∨
      ∃ r, k.boot src = some (.to r) ∧ ∃ a ∈ st, a.out <:+ out ∧ a.out ≠ out ∧
        ¬ ∃ d, r.Refers out d ∧ a.out <:+ d := by
  have hf : find st out = none := by
    unfold find
    rw [List.find?_eq_none]
    intro p hp
    simpa using hn p hp
  have hbs : (∃ x, bootstrap k st out src = .error x) ↔
      ∃ x, amalgamation k st out (k.boot src) = .error x := by
    unfold bootstrap
    rw [hf]
    dsimp only
    cases amalgamation k st out (k.boot src) with
    | error x => exact ⟨fun _ => ⟨x, rfl⟩, fun _ => ⟨x, rfl⟩⟩
    | ok a => exact ⟨fun ⟨_, h⟩ => (by cases h), fun ⟨_, h⟩ => (by cases h)⟩
  rw [hbs]
  cases hs : k.boot src with
  | none => simp [amalgamation]
  | some s =>
    cases s with
    | disabled => simp [amalgamation]
    | absolute => simp [amalgamation]
    | unset =>
      simp only [amalgamation, Option.some.injEq, reduceCtorEq, false_and, exists_false, or_false]
      refine iff_of_false ?_ id
      rintro ⟨x, hx⟩
      cases hfo : findOut k out.tail <;> cases ho : outerRoot st out <;>
        rw [hfo, ho] at hx <;> dsimp only at hx
      · cases hx
      · split at hx <;> cases hx
      · cases hx
      · split at hx
        · cases hx
        · split at hx <;> cases hx
    | to r =>
      simp only [amalgamation, Option.some.injEq, reduceCtorEq, false_or, Setting.to.injEq]
      cases ho : outerRoot st out with
      | none =>
        dsimp only
        constructor
        · rintro ⟨x, hx⟩; cases hx
        · rintro ⟨r', rfl, a, ha, h1, h2, _⟩
          exact absurd (outerRoot_none ho a ha h1) h2
      | some b =>
        obtain ⟨hb, hb1, hb2, hb3⟩ := outerRoot_some ho
        dsimp only
        cases hr : resolve r out with
        | error x =>
          dsimp only
          refine iff_of_true ⟨x, rfl⟩ ⟨r, rfl, b, hb, hb1, hb2, ?_⟩
          rintro ⟨d, hd, _⟩
          rw [refers_iff, hr] at hd; cases hd
        | ok d =>
          dsimp only
          by_cases hsub : b.out.isSuffixOf d = true
          · rw [if_pos hsub]
            refine iff_of_false (fun ⟨_, hx⟩ => (by cases hx)) ?_
            rintro ⟨r', rfl, a, ha, h1, h2, h3⟩
            exact h3 ⟨d, refers_iff.2 hr,
              (hb3 a ha h1 h2).trans (List.isSuffixOf_iff_suffix.1 hsub)⟩
          · rw [if_neg hsub]
            refine iff_of_true ⟨_, rfl⟩ ⟨r, rfl, b, hb, hb1, hb2, ?_⟩
            rintro ⟨d', hd, hd'⟩
            rw [refers_iff, hr] at hd
            cases hd
            exact hsub (List.isSuffixOf_iff_suffix.2 hd')

/-- `amalgamation = ../../` of `/w/all/x/y`, which is in the project `/w/all/x`. -/
example : errOf (run { exDisk with boot := fun d =>
      if d = ["x", "all", "w"] then some .unset
      else if d = ["y", "x", "all", "w"] then some (.to ⟨2, []⟩) else none } 9
    [.boot ["x", "all", "w"] ["x", "all", "w"], .boot ["y", "x", "all", "w"] ["y", "x", "all", "w"]]
    []) = some .incorrect := by decide +kernel

/-! ## Loading -/

/-- Each project is loaded once. -/
theorem loaded_once {k : Disk} {n : Nat} {os : List Op} {st : List Proj}
    (h : run k n os [] = .ok st) : (st.map Proj.out).Nodup := (run_inv h (inv_nil k)).1.uniq

/-- Its directories and what amalgamates it never change. -/
theorem loaded_kept {k : Disk} {n : Nat} {os os' : List Op} {st st' : List Proj}
    (h : run k n os [] = .ok st) (h' : run k n os' st = .ok st') :
    ∀ p ∈ st, ∃ q ∈ st', q.out = p.out ∧ q.src = p.src ∧ q.amalg = p.amalg := by
  intro p hp
  obtain ⟨q, hq, e⟩ := (run_inv h' (run_inv h (inv_nil k)).1).2.mem hp
  obtain ⟨a1, a2, a3, a4⟩ := core_eq e
  exact ⟨q, hq, a1, a2, a4⟩

/-- After what amalgamates a project has been loaded, that is what amalgamates it, what amalgamates
that, and so on up to one that isn't; and for each of these the one that amalgamates it strongly is
right: the outermost such that each on the way has its sources within those of the next. -/
theorem outer_complete {k : Disk} {n m : Nat} {os : List Op} {st st' : List Proj} {i : Dir}
    (h : run k n os [] = .ok st) (h' : outer k m st i = .ok st') :
    ∃ c, Chain st' i c ∧ ∀ p ∈ st', p.out ∈ c → Strong st' p.out (strongScope p) :=
  (outer_inv m h' (run_inv h (inv_nil k)).1).2.2

/-- And so it remains, whatever is loaded afterwards. -/
theorem outer_remains {k : Disk} {n m : Nat} {os os' : List Op} {st st' st'' : List Proj} {i : Dir}
    (h : run k n os [] = .ok st) (h' : outer k m st i = .ok st')
    (h'' : run k n os' st' = .ok st'') : ∃ c, Chain st' i c ∧ Chain st'' i c := by
  obtain ⟨hi, _, c, hc, _⟩ := outer_inv m h' (run_inv h (inv_nil k)).1
  exact ⟨c, hc, hc.ext (run_inv h'' hi).2⟩

/-- The source directory of a project that is loaded as the amalgamation of another one: the one that
it is configured with; else its output directory if that is also a source; else as far from that of
the other project as the output directory is. -/
def Sourced (k : Disk) (st : List Proj) (q : Proj) : Prop :=
  k.conf q.out = some q.src ∨
  (k.conf q.out = none ∧ (k.boot q.out).isSome ∧ q.src = q.out) ∨
  (k.conf q.out = none ∧ k.boot q.out = none ∧
    ∃ p ∈ st, ∃ r, p.amalg = some r ∧ r.Refers p.out q.out ∧ r.Refers p.src q.src)

private theorem sourced_ext {k : Disk} {st st' : List Proj} (he : Ext st st') {q q' : Proj}
    (hq : core q' = core q) (h : Sourced k st q) : Sourced k st' q' := by
  obtain ⟨a1, a2, a3, a4⟩ := core_eq hq
  unfold Sourced at h ⊢
  rw [a1, a2]
  rcases h with h | h | ⟨h1, h2, p, hp, r, hr, hr1, hr2⟩
  · exact .inl h
  · exact .inr (.inl h)
  · obtain ⟨p', hp', e⟩ := he.mem hp
    obtain ⟨b1, b2, b3, b4⟩ := core_eq e
    exact .inr (.inr ⟨h1, h2, p', hp', r, b4.trans hr, by rw [b1]; exact hr1, by rw [b2]; exact hr2⟩)

/-- It is found in this way for every project that is loaded as an amalgamation. -/
theorem outer_sources {k : Disk} {n m : Nat} {os : List Op} {st st' : List Proj} {i : Dir}
    (h : run k n os [] = .ok st) (h' : outer k m st i = .ok st') :
    ∀ q ∈ st', (∀ p ∈ st, p.out ≠ q.out) → Sourced k st' q := by
  have hi := (run_inv h (inv_nil k)).1
  clear h
  induction m generalizing st st' i with
  | zero => cases h'
  | succ m ih =>
    rw [outer] at h'
    cases hf : find st i with
    | none => rw [hf] at h'; cases h'
    | some p =>
      rw [hf] at h'
      dsimp only at h'
      obtain ⟨hp, rfl⟩ := find_some hf
      cases ha : p.amalg with
      | none =>
        rw [ha] at h'
        cases h'
        intro q hq hn
        exact absurd rfl (hn q hq)
      | some r =>
        rw [ha] at h'
        dsimp only at h'
        cases hr : resolve r p.out with
        | error x => rw [hr] at h'; cases h'
        | ok o =>
          rw [hr] at h'
          dsimp only at h'
          cases hsrc : outerSrc k st r p.src o with
          | error x => rw [hsrc] at h'; cases h'
          | ok s =>
            rw [hsrc] at h'
            dsimp only at h'
            cases hb : bootstrap k st o s with
            | error x => rw [hb] at h'; cases h'
            | ok st1 =>
              rw [hb] at h'
              dsimp only at h'
              obtain ⟨hi1, he1, z, hz, hzo, hzs⟩ := bootstrap_inv hb hi
              cases ho : outer k m st1 o with
              | error x => rw [ho] at h'; cases h'
              | ok st2 =>
                rw [ho] at h'
                dsimp only at h'
                obtain ⟨hi2, he2, _⟩ := outer_inv m ho hi1
                have key : ∀ q ∈ st2, (∀ p ∈ st, p.out ≠ q.out) → Sourced k st2 q := by
                  intro q hq hn
                  by_cases h1 : ∃ w ∈ st1, w.out = q.out
                  · obtain ⟨w, hw, hwq⟩ := h1
                    -- It is the one that has just been entered.
                    have hwz : w = z ∧ find st o = none := by
                      have hsh := hb
                      unfold bootstrap at hsh
                      cases hfo : find st o with
                      | some y =>
                        rw [hfo] at hsh
                        cases hsh
                        exact absurd hwq (hn w hw)
                      | none =>
                        rw [hfo] at hsh
                        dsimp only at hsh
                        split at hsh
                        · cases hsh
                        · cases hsh
                          rcases List.mem_append.1 hw with hw' | hw'
                          · exact absurd hwq (hn w hw')
                          · rw [List.mem_singleton] at hw'
                            refine ⟨uniq_eq hi1.uniq hw hz ?_, rfl⟩
                            rw [hw', hzo]
                    obtain ⟨rfl, hfo⟩ := hwz
                    have hws := hzs hfo
                    have hsz : Sourced k st1 w := by
                      unfold outerSrc at hsrc
                      rw [hfo] at hsrc
                      dsimp only at hsrc
                      unfold Sourced
                      rw [hzo, hws]
                      cases hc : k.conf o with
                      | some c =>
                        rw [hc] at hsrc
                        cases hsrc
                        exact .inl rfl
                      | none =>
                        rw [hc] at hsrc
                        dsimp only at hsrc
                        by_cases hbo : (k.boot o).isSome = true
                        · rw [if_pos hbo] at hsrc
                          cases hsrc
                          exact .inr (.inl ⟨rfl, hbo, rfl⟩)
                        · rw [if_neg hbo] at hsrc
                          obtain ⟨p', hp', e⟩ := he1.mem hp
                          obtain ⟨b1, b2, b3, b4⟩ := core_eq e
                          refine .inr (.inr ⟨rfl, by simpa using hbo, p', hp', r, b4.trans ha,
                            refers_iff.2 (by rw [b1]; exact hr),
                            refers_iff.2 (by rw [b2]; exact hsrc)⟩)
                    obtain ⟨w', hw', e⟩ := he2.mem hz
                    have : q = w' := uniq_eq hi2.uniq hq hw' (hwq.symm.trans (core_eq e).1.symm)
                    subst this
                    exact sourced_ext he2 e hsz
                  · exact ih ho hi1 q hq (fun w hw hwq => h1 ⟨w, hw, hwq⟩)
                cases hq : find st2 o with
                | none => rw [hq] at h'; cases h'
                | some q =>
                  rw [hq] at h'
                  dsimp only at h'
                  split at h'
                  · cases h'
                    have hc2 := setStrong_core st2 p.out (strongScope q)
                    intro x hx hn
                    obtain ⟨y, hy, e, _⟩ := setStrong_mem hx
                    refine sourced_ext (ext_of_eq hc2) e (key y hy ?_)
                    intro w hw
                    rw [← (core_eq e).1]; exact hn w hw
                  · cases h'
                    exact key

/-- What amalgamates strongly is unique. -/
theorem strong_unique {st : List Proj} (hu : (st.map Proj.out).Nodup) {d s s' : Dir}
    (h : Strong st d s) (h' : Strong st d s') : s = s' := by
  have hin : ∀ {p o p' o' : Proj}, In st p o → In st p' o' → p.out = p'.out → p = p' ∧ o = o' := by
    rintro p o p' o' ⟨hp, ho, r, hr, hr'⟩ ⟨hp', ho', r1, hr1, hr1'⟩ he
    have := uniq_eq hu hp hp' he
    subst this
    rw [hr] at hr1
    cases hr1
    exact ⟨rfl, uniq_eq hu ho ho' (refers_unique hr' hr1')⟩
  induction h with
  | @last p hp ha =>
    generalize hd : p.out = d at h'
    cases h' with
    | @last p' hp' ha' => rfl
    | @apart p' o' hi' hn' => rfl
    | @within p' o' _ hi' hn' hs' =>
      have := uniq_eq hu hp hi'.1 hd
      subst this
      obtain ⟨_, _, r, hr, _⟩ := hi'
      rw [ha] at hr; cases hr
  | @apart p o hi hn =>
    generalize hd : p.out = d at h'
    cases h' with
    | @last p' hp' ha' => rfl
    | @apart p' o' hi' hn' => rfl
    | @within p' o' _ hi' hn' hs' =>
      obtain ⟨rfl, rfl⟩ := hin hi hi' hd
      exact absurd hn' hn
  | @within p o q hi hn hs ih =>
    generalize hd : p.out = d at h'
    cases h' with
    | @last p' hp' ha' =>
      have := uniq_eq hu hi.1 hp' hd
      subst this
      obtain ⟨_, _, r, hr, _⟩ := hi
      rw [ha'] at hr; cases hr
    | @apart p' o' hi' hn' =>
      obtain ⟨rfl, rfl⟩ := hin hi hi' hd
      exact absurd hn hn'
    | @within p' o' _ hi' hn' hs' =>
      obtain ⟨rfl, rfl⟩ := hin hi hi' hd
      exact ih hs'

/-- When a subproject is loaded that the project amalgamates (and what amalgamates the latter strongly
is right) then what amalgamates the former strongly is right, without loading what amalgamates it. -/
theorem inner_strong_partial {k : Disk} {n : Nat} {os : List Op} {st st' : List Proj}
    {root down : Dir} (h : run k n os [] = .ok st) {p : Proj} (hp : p ∈ st) (hpo : p.out = root)
    (hps : Strong st root (strongScope p)) (h' : inner k st root down = .ok st') {q : Proj}
    (hq : q ∈ st') (hqo : q.out = down ++ root)
    (hqa : ∀ r, q.amalg = some r → r.Refers q.out root) : Strong st' q.out (strongScope q) := by
  have hi := (run_inv h (inv_nil k)).1
  unfold inner at h'
  cases hf : find st root with
  | none => exact absurd hpo (find_none hf p hp)
  | some p' =>
    have hpp : p' = p := uniq_eq hi.uniq (find_some hf).1 hp ((find_some hf).2.trans hpo.symm)
    subst hpp
    rw [hf] at h'
    dsimp only at h'
    cases hs : outerSrc k st ⟨0, down⟩ p'.src (down ++ root) with
    | error x => rw [hs] at h'; cases h'
    | ok s =>
      rw [hs] at h'
      dsimp only at h'
      cases hb : bootstrap k st (down ++ root) s with
      | error x => rw [hb] at h'; cases h'
      | ok st1 =>
        rw [hb] at h'
        dsimp only at h'
        obtain ⟨hi1, he1, -⟩ := bootstrap_inv hb hi
        cases hg : find st1 (down ++ root) with
        | none => rw [hg] at h'; cases h'
        | some z =>
          rw [hg] at h'
          dsimp only at h'
          obtain ⟨hz, hzo⟩ := find_some hg
          obtain ⟨p1, hp1, e1⟩ := he1.mem hp
          obtain ⟨b1, b2, b3, b4⟩ := core_eq e1
          have hps1 : Strong st1 p1.out (strongScope p') := by
            rw [b1, hpo]; exact hps.ext he1
          -- The subproject before it is recorded.
          have hbefore : ∀ x ∈ st1, x.out = down ++ root →
              (∀ r, x.amalg = some r → r.Refers x.out root) → ∀ r, x.amalg = some r →
              In st1 x p1 := by
            intro x hx hxo hxa r hr
            exact ⟨hx, hp1, r, hr, by rw [b1, hpo]; exact hxa r hr⟩
          by_cases hc : (z.amalg.isSome && p'.src.isSuffixOf z.src) = true
          · rw [if_pos hc] at h'
            cases h'
            rw [Bool.and_eq_true] at hc
            obtain ⟨y, hy, e, ⟨h1, h2⟩ | ⟨h1, h2⟩⟩ := setStrong_mem hq
            · have hyz := uniq_eq hi1.uniq hy hz (h1.trans hzo.symm)
              subst hyz
              obtain ⟨r, hr⟩ := Option.isSome_iff_exists.1 hc.1
              have hin := hbefore y hy hzo (fun r' hr' => by
                rw [← (core_eq e).1]; exact hqa r' ((core_eq e).2.2.2.trans hr')) r hr
              have hS : Strong st1 y.out (strongScope p') :=
                .within hin (by rw [b2]; exact List.isSuffixOf_iff_suffix.1 hc.2) hps1
              rw [(core_eq e).1]
              have h3 : strongScope q = strongScope p' := by
                rw [strongScope, h2]; rfl
              rw [h3]
              exact hS.ext (ext_of_eq (setStrong_core _ _ _))
            · exact absurd ((core_eq e).1.symm.trans hqo) h1
          · rw [if_neg hc] at h'
            cases h'
            have hqz := uniq_eq hi1.uniq hq hz (hqo.trans hzo.symm)
            subst hqz
            unfold strongScope
            cases hst : q.strong with
            | some s => exact hi1.strong q hq s hst
            | none =>
              cases ha : q.amalg with
              | none => exact .last hq ha
              | some r =>
                refine .apart (hbefore q hq hqo hqa r ha) ?_
                intro hsub
                rw [b2] at hsub
                apply hc
                rw [ha, List.isSuffixOf_iff_suffix.2 hsub]
                rfl

example : stOf (inner exDisk [⟨["hello", "out", "w"], ["hello", "all", "w"], false, none, none⟩]
      ["hello", "out", "w"] ["tests"]) =
    some [⟨["hello", "out", "w"], ["hello", "all", "w"], false, none, none⟩,
      ⟨["tests", "hello", "out", "w"], ["tests", "hello", "all", "w"], false, some ⟨1, []⟩,
        some ["hello", "out", "w"]⟩] := by decide +kernel

/-! ## Ending -/

/-- What projects specify as their amalgamation is outside of them. -/
def Upward (k : Disk) : Prop := ∀ d r, k.boot d = some (.to r) → 1 ≤ r.up ∧ r.down = []

private theorem upward_all {k : Disk} (hu : Upward k) {st : List Proj} (hm : Made k st) :
    ∀ p ∈ st, ∀ r, p.amalg = some r → 1 ≤ r.up ∧ r.down = [] := by
  intro p hp r hr
  obtain ⟨_, st0, _, _, ha⟩ := hm p hp
  rw [hr] at ha
  have hrel : ∀ d, d <:+ p.out → d ≠ p.out → relative d p.out = r → 1 ≤ r.up ∧ r.down = [] := by
    rintro d hd hd' rfl
    refine ⟨?_, rfl⟩
    have h1 := hd.length_le
    have h2 : d.length ≠ p.out.length := fun hl => hd' (hd.eq_of_length hl)
    show 1 ≤ p.out.length - d.length
    omega
  cases hb : k.boot p.src with
  | none => rw [hb] at ha; cases ha
  | some s =>
    rw [hb] at ha
    cases s with
    | disabled => simp [amalgamation] at ha
    | absolute => simp [amalgamation] at ha
    | to r' =>
      have : r' = r := by
        simp only [amalgamation] at ha
        split at ha
        · simpa using ha
        · split at ha
          · cases ha
          · split at ha
            · simpa using ha
            · cases ha
      subst this
      exact hu _ _ hb
    | unset =>
      simp only [amalgamation] at ha
      cases hfo : findOut k p.out.tail with
      | none =>
        rw [hfo] at ha
        dsimp only at ha
        cases ho : outerRoot st0 p.out with
        | none => rw [ho] at ha; cases ha
        | some b =>
          obtain ⟨_, hb1, hb2, _⟩ := outerRoot_some ho
          rw [ho] at ha
          dsimp only at ha
          split at ha
          · cases ha
          · exact hrel _ hb1 hb2 (by simpa using ha)
      | some d =>
        have hd := (outside_iff k p.out d).1 hfo
        rw [hfo] at ha
        dsimp only at ha
        cases ho : outerRoot st0 p.out with
        | none =>
          rw [ho] at ha
          dsimp only at ha
          exact hrel _ hd.1 hd.2.1 (by simpa using ha)
        | some b =>
          obtain ⟨_, hb1, hb2, _⟩ := outerRoot_some ho
          rw [ho] at ha
          dsimp only at ha
          split at ha
          · exact hrel _ hd.1 hd.2.1 (by simpa using ha)
          · split at ha
            · cases ha
            · exact hrel _ hb1 hb2 (by simpa using ha)

/-- Loading what amalgamates a project ends, after at most as many steps as its directory has
components. -/
theorem outer_ends_partial {k : Disk} (hu : Upward k) {n : Nat} {os : List Op} {st : List Proj}
    (h : run k n os [] = .ok st) (i : Dir) (m : Nat) (hm : i.length < m) :
    outer k m st i ≠ .error .depth := by
  have hi := (run_inv h (inv_nil k)).1
  clear h
  induction m generalizing st i with
  | zero => omega
  | succ m ih =>
    rw [outer]
    cases hf : find st i with
    | none => simp
    | some p =>
      dsimp only
      obtain ⟨hp, rfl⟩ := find_some hf
      cases ha : p.amalg with
      | none => simp
      | some r =>
        dsimp only
        obtain ⟨hr1, hr2⟩ := upward_all hu hi.made p hp r ha
        cases hr : resolve r p.out with
        | error x =>
          unfold resolve at hr
          split at hr <;> cases hr
          simp
        | ok o =>
          have hlen : o.length < m := by
            unfold resolve at hr
            split at hr <;> cases hr
            rw [hr2, List.nil_append, List.length_drop]
            omega
          dsimp only
          cases hs : outerSrc k st r p.src o with
          | error x =>
            unfold outerSrc at hs
            split at hs
            · cases hs
            · split at hs
              · cases hs
              · split at hs
                · cases hs
                · unfold resolve at hs
                  split at hs <;> cases hs
                  simp
          | ok s =>
            dsimp only
            cases hb : bootstrap k st o s with
            | error x =>
              unfold bootstrap at hb
              split at hb
              · cases hb
              · split at hb
                · rename_i y hy
                  cases hb
                  cases hbb : k.boot s with
                  | none => rw [hbb] at hy; cases hy
                  | some t =>
                    rw [hbb] at hy
                    cases t <;> simp only [amalgamation] at hy
                    · split at hy
                      · split at hy
                        · cases hy
                        · split at hy
                          · cases hy
                          · split at hy
                            · split at hy <;> cases hy
                            · cases hy
                      · split at hy
                        · split at hy <;> cases hy
                        · cases hy
                    · cases hy
                    · split at hy
                      · cases hy
                      · split at hy
                        · rename_i hz
                          cases hy
                          unfold resolve at hz
                          split at hz <;> cases hz
                          simp
                        · split at hy <;> cases hy
                          simp
                    · cases hy; simp
                · cases hb
            | ok st1 =>
              dsimp only
              have hi1 := (bootstrap_inv hb hi).1
              have := ih o hlen hi1
              cases ho : outer k m st1 o with
              | error x =>
                dsimp only
                intro hx
                cases hx
                exact this ho
              | ok st2 =>
                dsimp only
                cases hq : find st2 o with
                | none => simp
                | some q =>
                  dsimp only
                  split <;> simp

/-- And each is outside of the previous one. -/
theorem chain_outwards_partial {k : Disk} (hu : Upward k) {n : Nat} {os : List Op} {st : List Proj}
    (h : run k n os [] = .ok st) {i : Dir} {c : List Dir} (hc : Chain st i c) :
    c.Pairwise (fun a b => b <:+ a ∧ b ≠ a) := by
  have hup := upward_all hu (run_inv h (inv_nil k)).1.made
  have key : c.Pairwise (fun a b => b <:+ a ∧ b ≠ a) ∧ ∀ x ∈ c, x <:+ i := by
    induction hc with
    | last hp ha =>
      refine ⟨List.pairwise_singleton _ _, ?_⟩
      intro x hx
      rw [List.mem_singleton] at hx
      rw [hx]; exact List.suffix_refl _
    | @next p o c hi hc ih =>
      obtain ⟨hp, ho, r, hr, a, b, h1, h2, h3⟩ := hi
      obtain ⟨hr1, hr2⟩ := hup p hp r hr
      rw [hr2, List.nil_append] at h3
      have hs : o.out <:+ p.out := by rw [h1, h3]; exact List.suffix_append _ _
      have hne : o.out.length < p.out.length := by
        rw [h1, h3, List.length_append]; omega
      constructor
      · rw [List.pairwise_cons]
        refine ⟨fun x hx => ⟨(ih.2 x hx).trans hs, ?_⟩, ih.1⟩
        rintro rfl
        have := (ih.2 _ hx).length_le
        omega
      · intro x hx
        rcases List.mem_cons.1 hx with rfl | hx
        · exact List.suffix_refl _
        · exact (ih.2 x hx).trans hs
  exact key.1

example : Upward exDisk := by
  intro d r h
  unfold exDisk at h
  dsimp only at h
  split at h
  · cases h
  · split at h
    · cases h
    · split at h
      · cases h; exact ⟨by decide, rfl⟩
      · cases h

/-! ## What is not so -/

/-- `amalgamation = ./` is not diagnosed, and loading never ends. -/
def selfDisk : Disk where
  boot d := if d = ["x"] then some (.to ⟨0, []⟩) else none
  conf _ := none
  home := none

theorem self_never_ends : ∃ st, run selfDisk 0 [.boot ["x"] ["x"]] [] = .ok st ∧
    ∀ n, outer selfDisk n st ["x"] = .error .depth := by
  refine ⟨[⟨["x"], ["x"], false, some ⟨0, []⟩, none⟩], rfl, ?_⟩
  intro n
  induction n with
  | zero => rfl
  | succ n ih =>
    simp [outer, find, resolve, outerSrc, bootstrap, ih]

/-- `/w/all` is a project; `/w/all/out` is where another one is being configured, and
`/w/all/out/sub` where its subproject is. -/
def newDisk : Disk where
  boot d :=
    if d ∈ [["all", "w"], ["src"], ["sub", "src"]] then some .unset else none
  conf _ := none
  home := none

/-- If a project is not configured then it depends on the order what amalgamates its subprojects. -/
theorem unconfigured_depends :
    (stOf (run newDisk 9 [.boot ["out", "all", "w"] ["src"],
        .boot ["sub", "out", "all", "w"] ["sub", "src"]] [])).map (fun st => st.map Proj.amalg) =
      some [some ⟨1, []⟩, some ⟨1, []⟩] ∧
    (stOf (run newDisk 9 [.boot ["sub", "out", "all", "w"] ["sub", "src"],
        .boot ["out", "all", "w"] ["src"]] [])).map (fun st => st.map Proj.amalg) =
      some [some ⟨2, []⟩, some ⟨1, []⟩] := by
  constructor <;> decide +kernel

/-- A project in the home directory amalgamates nothing on its own account, but does if it happens to
be loaded. -/
theorem home_depends :
    (stOf (run { newDisk with home := some ["all", "w"] } 9
        [.boot ["p", "all", "w"] ["src"]] [])).map (fun st => st.map Proj.amalg) =
      some [none] ∧
    (stOf (run { newDisk with home := some ["all", "w"] } 9
        [.boot ["all", "w"] ["all", "w"], .boot ["p", "all", "w"] ["src"]] [])).map
        (fun st => st.map Proj.amalg) =
      some [none, some ⟨1, []⟩] := by
  constructor <;> decide +kernel

/-- `/p` has the subproject `/p/a/b`, and `/p/a` is a project with its sources elsewhere. -/
def gapDisk : Disk where
  boot d := if d ∈ [["p"], ["b", "a", "p"], ["elsewhere"]] then some .unset else none
  conf d := if d = ["a", "p"] then some ["elsewhere"] else none
  home := none

/-- A subproject that another project amalgamates is recorded as strongly amalgamated by the project
that it is a subproject of; which it isn't, as is found if what amalgamates it is loaded before. -/
theorem inner_gap :
    stOf (inner gapDisk [⟨["p"], ["p"], false, none, none⟩] ["p"] ["b", "a"]) =
      some [⟨["p"], ["p"], false, none, none⟩,
        ⟨["b", "a", "p"], ["b", "a", "p"], false, some ⟨1, []⟩, some ["p"]⟩] ∧
    stOf (run gapDisk 9 [.boot ["p"] ["p"], .boot ["b", "a", "p"] ["b", "a", "p"],
        .outer ["b", "a", "p"]] []) =
      some [⟨["p"], ["p"], false, none, none⟩,
        ⟨["b", "a", "p"], ["b", "a", "p"], false, some ⟨1, []⟩, none⟩,
        ⟨["a", "p"], ["elsewhere"], false, some ⟨1, []⟩, none⟩] := by
  constructor <;> decide +kernel

/-- What is specified is only checked against projects that are already loaded: whether
`/w/all/x/y`, which specifies `/w/all`, can be loaded along with `/w/all/x` depends on the order. -/
def skipDisk : Disk where
  boot d :=
    if d ∈ [["all", "w"], ["x", "all", "w"]] then some .unset
    else if d = ["y", "x", "all", "w"] then some (.to ⟨2, []⟩) else none
  conf _ := none
  home := none

theorem check_depends :
    errOf (run skipDisk 9 [.boot ["x", "all", "w"] ["x", "all", "w"],
      .boot ["y", "x", "all", "w"] ["y", "x", "all", "w"]] []) = some .incorrect ∧
    errOf (run skipDisk 9 [.boot ["y", "x", "all", "w"] ["y", "x", "all", "w"],
      .boot ["x", "all", "w"] ["x", "all", "w"]] []) = none := by
  constructor <;> decide +kernel

end Verif.Amalgam
