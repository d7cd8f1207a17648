import Verif.PhaseMutex.Model
import Verif.Util.Tally

/-! Helper lemmas: the inductive invariant. -/
namespace Verif.PhaseMutex
open Verif.Util

/-- The phase a thread is counted for. -/
def ph : T → Option Ph
  | .idle => none
  | .sleep n => some n
  | .awake n => some n
  | .wantLoad => some .load
  | .hold n _ => some n
  | .leaving o _ => some o
  | .notify _ none => none
  | .notify v (some _) => some v

/-- The phase a thread is in. -/
def inn : T → Option Ph
  | .wantLoad => some .load
  | .hold n _ => some n
  | .leaving o _ => some o
  | .notify v (some _) => some v
  | _ => none

theorem ph_of_inn {t : T} {p : Ph} (h : inn t = some p) : ph t = some p := by
  cases t with
  | notify v k => cases k <;> simp_all [inn, ph]
  | _ => simp_all [inn, ph]

def wPh (p : Ph) (t : T) : Nat := if ph t = some p then 1 else 0

def wLoad : T → Nat
  | .hold .load _ => 1
  | _ => 0

/-- The result is right. -/
def good (fail : Bool) : T → Prop
  | .hold _ ok => ok = !fail
  | .notify v (some r) => v ≠ .load → r = !fail
  | _ => True

structure Inv (s : St) : Prop where
  cnt : ∀ p, s.cnt p = tally (wPh p) s.threads
  inn : ∀ (j : Nat) (u : T) (p : Ph), s.threads[j]? = some u → inn u = some p → p = s.phase
  ne : s.cnt s.phase = 0 → ∀ p, s.cnt p = 0
  unl : (∀ p, s.cnt p = 0) → s.phase = .load
  slp : ∀ j : Nat, s.threads[j]? = some (.sleep s.phase) →
    ∃ (m : Nat) (k : Option Bool), s.threads[m]? = some (.notify s.phase k)
  lm : tally wLoad s.threads = if s.lm then 1 else 0
  res : ∀ (j : Nat) (u : T), s.threads[j]? = some u → good s.fail u

theorem cnt_inc (s : St) (n p : Ph) : (s.inc n).cnt p = s.cnt p + (if n = p then 1 else 0) := by
  cases n <;> cases p <;> simp [St.inc, St.cnt]

theorem cnt_dec (s : St) (n p : Ph) : (s.dec n).cnt p = s.cnt p - (if n = p then 1 else 0) := by
  cases n <;> cases p <;> simp [St.dec, St.cnt]

theorem inc_fields (s : St) (n : Ph) : (s.inc n).phase = s.phase ∧ (s.inc n).fail = s.fail ∧
    (s.inc n).lm = s.lm ∧ (s.inc n).threads = s.threads ∧ (s.inc n).depth = s.depth ∧
    (s.inc n).underflow = s.underflow := by
  cases n <;> exact ⟨rfl, rfl, rfl, rfl, rfl, rfl⟩

theorem dec_fields (s : St) (n : Ph) : (s.dec n).phase = s.phase ∧ (s.dec n).fail = s.fail ∧
    (s.dec n).lm = s.lm ∧ (s.dec n).threads = s.threads ∧ (s.dec n).depth = s.depth ∧
    (s.dec n).underflow = s.underflow := by
  cases n <;> exact ⟨rfl, rfl, rfl, rfl, rfl, rfl⟩

theorem subPhase_fields (s : St) (o n : Ph) : (subPhase s o n).phase = s.phase ∧
    (subPhase s o n).fail = s.fail ∧ (subPhase s o n).lm = s.lm ∧
    (subPhase s o n).threads = s.threads ∧ (∀ p, (subPhase s o n).cnt p = s.cnt p) := by
  unfold subPhase
  split
  · exact ⟨rfl, rfl, rfl, rfl, fun p => by cases p <;> rfl⟩
  · split
    · split <;> exact ⟨rfl, rfl, rfl, rfl, fun p => by cases p <;> rfl⟩
    · exact ⟨rfl, rfl, rfl, rfl, fun p => rfl⟩

theorem all_zero (s : St) : (∀ p, s.cnt p = 0) ↔ s.lc = 0 ∧ s.mc = 0 ∧ s.ec = 0 :=
  ⟨fun h => ⟨h .load, h .match_, h .execute⟩,
   fun ⟨a, b, c⟩ p => by cases p <;> assumption⟩

/-- Thread `i` goes from `t` to `t'`, the phase stays. -/
theorem inv_same {s s' : St} {i : Nat} {t t' : T} (h : Inv s) (hi : s.threads[i]? = some t)
    (ht : s'.threads = s.threads.set i t') (hp : s'.phase = s.phase)
    (hc : ∀ p, s'.cnt p + wPh p t = s.cnt p + wPh p t')
    (hin : ∀ p, inn t' = some p → p = s.phase)
    (hne : s'.cnt s.phase = 0 → ∀ p, s'.cnt p = 0)
    (hunl : (∀ p, s'.cnt p = 0) → s.phase = .load)
    (hsl : t' ≠ .sleep s.phase) (hnt : ∀ k, t ≠ .notify s.phase k)
    (hlm : (if s'.lm then 1 else 0) + wLoad t = (if s.lm then 1 else 0) + wLoad t')
    (hf : s'.fail = s.fail) (hg : good s.fail t') : Inv s' := by
  refine ⟨?_, ?_, ?_, ?_, ?_, ?_, ?_⟩
  · intro p
    have h1 := hc p
    have h2 := tally_set (w := wPh p) (q := t') hi
    have h3 := h.cnt p
    rw [ht]; omega
  · intro j u p hj hu
    rw [ht] at hj
    rw [hp]
    rcases get_set hj with ⟨_, rfl⟩ | ⟨_, hj⟩
    · exact hin p hu
    · exact h.inn j u p hj hu
  · rw [hp]; exact hne
  · rw [hp]; exact hunl
  · intro j hj
    rw [ht, hp] at hj
    rw [ht, hp]
    rcases get_set hj with ⟨_, h'⟩ | ⟨_, hj⟩
    · exact absurd h'.symm hsl
    · obtain ⟨m, k, hm⟩ := h.slp j hj
      have hmi : m ≠ i := by
        intro e; subst e
        rw [hi] at hm
        injection hm with hm
        exact hnt k hm
      exact ⟨m, k, by rw [List.getElem?_set_ne (fun e => hmi e.symm)]; exact hm⟩
  · have h2 := tally_set (w := wLoad) (q := t') hi
    have h3 := h.lm
    rw [ht]; omega
  · intro j u hj
    rw [ht] at hj
    rw [hf]
    rcases get_set hj with ⟨_, rfl⟩ | ⟨_, hj⟩
    · exact hg
    · exact h.res j u hj

/-- Thread `i` goes from `t` to `t'` and the phase changes (or is set) when no
other thread is in the old phase. -/
theorem inv_switch {s s' : St} {i : Nat} {t t' : T} (h : Inv s) (hi : s.threads[i]? = some t)
    (ht : s'.threads = s.threads.set i t')
    (hc : ∀ p, s'.cnt p + wPh p t = s.cnt p + wPh p t')
    (hno : ∀ (j : Nat) (u : T), j ≠ i → s.threads[j]? = some u → inn u = none)
    (hin : ∀ p, inn t' = some p → p = s'.phase)
    (hne : s'.cnt s'.phase = 0 → ∀ p, s'.cnt p = 0)
    (hunl : (∀ p, s'.cnt p = 0) → s'.phase = .load)
    (hsl : t' ≠ .sleep s'.phase)
    (hnt : (∃ k, t' = .notify s'.phase k) ∨
      ∀ j : Nat, j ≠ i → s.threads[j]? ≠ some (.sleep s'.phase))
    (hlm : (if s'.lm then 1 else 0) + wLoad t = (if s.lm then 1 else 0) + wLoad t')
    (hf : s'.fail = s.fail) (hg : good s.fail t') : Inv s' := by
  refine ⟨?_, ?_, hne, hunl, ?_, ?_, ?_⟩
  · intro p
    have h1 := hc p
    have h2 := tally_set (w := wPh p) (q := t') hi
    have h3 := h.cnt p
    rw [ht]; omega
  · intro j u p hj hu
    rw [ht] at hj
    rcases get_set hj with ⟨_, rfl⟩ | ⟨hji, hj⟩
    · exact hin p hu
    · rw [hno j u hji hj] at hu; cases hu
  · intro j hj
    rw [ht] at hj
    rw [ht]
    rcases get_set hj with ⟨_, h'⟩ | ⟨hji, hj⟩
    · exact absurd h'.symm hsl
    · rcases hnt with ⟨k, hk⟩ | hnt
      · refine ⟨i, k, ?_⟩
        rw [get_set_self hi, hk]
      · exact absurd hj (hnt j hji)
  · have h2 := tally_set (w := wLoad) (q := t') hi
    have h3 := h.lm
    rw [ht]; omega
  · intro j u hj
    rw [ht] at hj
    rw [hf]
    rcases get_set hj with ⟨_, rfl⟩ | ⟨_, hj⟩
    · exact hg
    · exact h.res j u hj

theorem wPh_enter (n : Ph) (r : Bool) (p : Ph) : wPh p (enter n r) = if n = p then 1 else 0 := by
  cases n <;> cases p <;> simp [enter, wPh, ph]

theorem wLoad_enter (n : Ph) (r : Bool) : wLoad (enter n r) = 0 := by
  cases n <;> simp [enter, wLoad]

theorem inn_enter (n : Ph) (r : Bool) : inn (enter n r) = some n := by
  cases n <;> simp [enter, inn]

theorem good_enter (f : Bool) (n : Ph) : good f (enter n (!f)) := by
  cases n <;> simp [enter, good]

theorem enter_ne_sleep (n p : Ph) (r : Bool) : enter n r ≠ .sleep p := by
  unfold enter; split <;> simp

/-- Nobody else is in the phase if this thread was the last one counted. -/
theorem last_in {s : St} (h : Inv s) {i : Nat} {o : Ph} {t : T} (hi : s.threads[i]? = some t)
    (ho : inn t = some o) (h1 : s.cnt o - 1 = 0) :
    ∀ (j : Nat) (u : T), j ≠ i → s.threads[j]? = some u → inn u = none := by
  intro j u hji hj
  cases hu : inn u with
  | none => rfl
  | some p =>
    have hp := h.inn j u p hj hu
    have hp' := h.inn i t o hi ho
    have := tally_le2 (w := wPh o) (fun e => hji e.symm) hi hj
    have hc := h.cnt o
    have w1 : wPh o t = 1 := by simp [wPh, ph_of_inn ho]
    have w2 : wPh o u = 1 := by simp [wPh, ph_of_inn hu, hp, hp']
    omega

theorem no_sleep_of_zero {s : St} (h : Inv s) {p : Ph} (h0 : s.cnt p = 0) (j : Nat) :
    s.threads[j]? ≠ some (.sleep p) := by
  intro hj
  have := tally_le (w := wPh p) hj
  have hc := h.cnt p
  simp [wPh, ph] at this
  omega

theorem inv_lock {s : St} {i : Nat} (h : Inv s) (hi : s.threads[i]? = some .idle) (n : Ph) :
    Inv (lockStep s i n) := by
  unfold lockStep
  obtain ⟨f1, f2, f3, f4, _, _⟩ := inc_fields s n
  have hci := cnt_inc s n
  have w0 : ∀ p, wPh p .idle = 0 := fun p => rfl
  dsimp only
  split
  · rename_i hu
    have hz : ∀ p, s.cnt p = 0 := (all_zero s).2 hu
    refine inv_switch (t' := enter n (!s.fail)) h hi ?_ ?_ ?_ ?_ ?_ ?_ ?_ (Or.inr ?_) ?_ ?_ ?_
    · simp only [St.put, f4]
    · intro p
      rw [w0, wPh_enter]
      exact hci p
    · intro j u hji hj
      cases hu : inn u with
      | none => rfl
      | some p =>
        have := tally_le (w := wPh p) hj
        have hc := h.cnt p
        have w2 : wPh p u = 1 := by simp [wPh, ph_of_inn hu]
        have := hz p
        omega
    · intro p hp; rw [inn_enter] at hp; cases hp; rfl
    · intro hc
      have h1 : (s.inc n).cnt n = 0 := hc
      rw [hci] at h1; simp at h1
    · intro hc
      have h1 : (s.inc n).cnt n = 0 := hc n
      rw [hci] at h1; simp at h1
    · exact enter_ne_sleep _ _ _
    · intro j _; exact no_sleep_of_zero h (hz _) j
    · simp only [St.put, f3, wLoad_enter]; rfl
    · exact f2
    · exact good_enter ..
  · rename_i hu
    have hne : s.cnt s.phase ≠ 0 := fun h0 => hu ((all_zero s).1 (h.ne h0))
    have hne' : (s.inc n).cnt s.phase ≠ 0 := by rw [hci]; omega
    split
    · rename_i hpn
      refine inv_same (t' := .sleep n) h hi ?_ f1 ?_ ?_ ?_ ?_ ?_ ?_ ?_ f2 ?_
      · simp only [St.put, f4]
      · intro p
        have : wPh p (.sleep n) = if n = p then 1 else 0 := by simp [wPh, ph]
        rw [w0, this]
        exact hci p
      · intro p hp; cases hp
      · intro h0; exact absurd h0 hne'
      · intro h0; exact absurd (h0 _) hne'
      · intro e; injection e with e; exact hpn e.symm
      · intro k e; cases e
      · simp only [St.put, f3]; rfl
      · trivial
    · rename_i hpn
      have hpn : s.phase = n := Decidable.byContradiction hpn
      refine inv_same (t' := enter n (!s.fail)) h hi ?_ f1 ?_ ?_ ?_ ?_ ?_ ?_ ?_ f2 ?_
      · simp only [St.put, f4]
      · intro p
        rw [w0, wPh_enter]
        exact hci p
      · intro p hp; rw [inn_enter] at hp; cases hp; exact hpn.symm
      · intro h0; exact absurd h0 hne'
      · intro h0; exact absurd (h0 _) hne'
      · exact enter_ne_sleep _ _ _
      · intro k e; cases e
      · simp only [St.put, f3, wLoad_enter]; rfl
      · exact good_enter ..

theorem cnt_put (s : St) (i : Nat) (t : T) (p : Ph) : (s.put i t).cnt p = s.cnt p := by
  cases p <;> rfl

theorem cnt_setphase (s : St) (n p : Ph) : ({ s with phase := n } : St).cnt p = s.cnt p := by
  cases p <;> rfl

theorem inv_unlock {s : St} {i : Nat} (h : Inv s) {o : Ph} {to : Option Ph}
    (hi : s.threads[i]? = some (.leaving o to)) : Inv (unlockStep s i o) := by
  unfold unlockStep
  obtain ⟨f1, f2, f3, f4, _, _⟩ := dec_fields s o
  have hcd := cnt_dec s o
  have ho : o = s.phase := h.inn i _ o hi rfl
  have hpos : 1 ≤ s.cnt o := by
    have := tally_le (w := wPh o) hi
    have hc := h.cnt o
    simp [wPh, ph] at this
    omega
  have wt : ∀ p, wPh p (.leaving o to) = if o = p then 1 else 0 := fun p => by simp [wPh, ph]
  have hcd' : ∀ p, (s.dec o).cnt p + wPh p (.leaving o to) = s.cnt p + 0 := by
    intro p
    rw [hcd, wt]
    split
    · rename_i e; subst e; omega
    · omega
  dsimp only
  split
  · rename_i hu
    have hu1 : s.cnt o - 1 = 0 := by rw [hcd] at hu; simpa using hu
    have hno := last_in h hi (show inn (.leaving o to) = some o from rfl) hu1
    -- the choice of the new phase
    generalize hnv : (if (s.dec o).lc ≠ 0 then (Ph.load, some Ph.load)
      else if (s.dec o).mc ≠ 0 then (Ph.match_, some Ph.match_)
      else if (s.dec o).ec ≠ 0 then (Ph.execute, some Ph.execute)
      else (Ph.load, none) : Ph × Option Ph) = nv
    have hcase : (nv.2 = some nv.1 ∧ (s.dec o).cnt nv.1 ≠ 0) ∨
        (nv = (.load, none) ∧ ∀ p, (s.dec o).cnt p = 0) := by
      split at hnv
      · left; subst hnv; exact ⟨rfl, ‹_›⟩
      · split at hnv
        · left; subst hnv; exact ⟨rfl, ‹_›⟩
        · split at hnv
          · left; subst hnv; exact ⟨rfl, ‹_›⟩
          · right
            refine ⟨hnv.symm, ?_⟩
            rw [all_zero]
            refine ⟨?_, ?_, ?_⟩ <;> omega
    obtain ⟨g1, g2, g3, g4, g5⟩ := subPhase_fields { s.dec o with phase := nv.1 } o nv.1
    have g5' : ∀ p, (subPhase { s.dec o with phase := nv.1 } o nv.1).cnt p = (s.dec o).cnt p :=
      fun p => (g5 p).trans (cnt_setphase ..)
    rcases hcase with ⟨hc2, hcn⟩ | ⟨hc1, hz⟩
    · simp only [hc2]
      refine inv_switch (t' := .notify nv.1 none) h hi ?_ ?_ hno ?_ ?_ ?_ ?_ (Or.inl ⟨none, ?_⟩)
        ?_ ?_ ?_
      · simp only [St.put]; rw [g4]; simp only [f4]
      · intro p; rw [cnt_put, g5']; exact hcd' p
      · intro p hp; cases hp
      · intro h0
        rw [cnt_put, g5'] at h0
        have : (subPhase { s.dec o with phase := nv.1 } o nv.1).phase = nv.1 := g1
        simp only [St.put, this] at h0
        exact absurd h0 hcn
      · intro h0
        have := h0 nv.1
        rw [cnt_put, g5'] at this
        exact absurd this hcn
      · intro e; cases e
      · show T.notify nv.1 none = .notify (subPhase { s.dec o with phase := nv.1 } o nv.1).phase none
        rw [g1]
      · show (if (subPhase { s.dec o with phase := nv.1 } o nv.1).lm then 1 else 0) + 0 = _ + 0
        rw [g3]; simp only [f3]
      · show (subPhase { s.dec o with phase := nv.1 } o nv.1).fail = _
        rw [g2]; exact f2
      · trivial
    · subst hc1
      dsimp only at *
      refine inv_switch (t' := .idle) h hi ?_ ?_ hno ?_ ?_ ?_ ?_ (Or.inr ?_) ?_ ?_ ?_
      · simp only [St.put]; rw [g4]; simp only [f4]
      · intro p; rw [cnt_put, g5']; exact hcd' p
      · intro p hp; cases hp
      · intro _ p; rw [cnt_put, g5']; exact hz p
      · intro _; exact g1
      · intro e; cases e
      · intro j hji hj
        have : (subPhase { s.dec o with phase := .load } o .load).phase = .load := g1
        simp only [St.put, this] at hj
        have hl := hz .load
        have h2 := tally_le2 (w := wPh .load) (fun e => hji e.symm) hi hj
        have hc := h.cnt .load
        have h3 := hcd' .load
        have : wPh .load (.sleep .load) = 1 := rfl
        omega
      · show (if (subPhase { s.dec o with phase := .load } o .load).lm then 1 else 0) + 0 = _ + 0
        rw [g3]; simp only [f3]
      · show (subPhase { s.dec o with phase := .load } o .load).fail = _
        rw [g2]; exact f2
      · trivial
  · rename_i hu
    refine inv_same (t' := .idle) h hi ?_ f1 ?_ ?_ ?_ ?_ ?_ ?_ ?_ f2 ?_
    · simp only [St.put, f4]
    · intro p; rw [cnt_put]; exact hcd' p
    · intro p hp; cases hp
    · intro h0; rw [cnt_put, ← ho] at h0; exact absurd h0 hu
    · intro h0; have := h0 o; rw [cnt_put] at this; exact absurd this hu
    · intro e; cases e
    · intro k e; cases e
    · simp only [St.put, f3]; rfl
    · trivial

theorem inv_relock {s : St} {i : Nat} (h : Inv s) {o n : Ph} {to : Option Ph}
    (hi : s.threads[i]? = some (.leaving o to)) (hon : o ≠ n) : Inv (relockStep s i o n) := by
  unfold relockStep
  obtain ⟨f1, f2, f3, f4, _, _⟩ := dec_fields s o
  obtain ⟨k1, k2, k3, k4, _, _⟩ := inc_fields (s.dec o) n
  have hcd := cnt_dec s o
  have hci := cnt_inc (s.dec o) n
  have ho : o = s.phase := h.inn i _ o hi rfl
  have hpos : 1 ≤ s.cnt o := by
    have := tally_le (w := wPh o) hi
    have hc := h.cnt o
    simp [wPh, ph] at this
    omega
  have wt : ∀ p, wPh p (.leaving o to) = if o = p then 1 else 0 := fun p => by simp [wPh, ph]
  have hcd' : ∀ p, ((s.dec o).inc n).cnt p + wPh p (.leaving o to) =
      s.cnt p + if n = p then 1 else 0 := by
    intro p
    rw [hci, hcd, wt]
    split
    · rename_i e; subst e; split <;> omega
    · omega
  have hn0 : ((s.dec o).inc n).cnt n ≠ 0 := by rw [hci]; simp
  dsimp only
  split
  · rename_i hu
    have hu1 : s.cnt o - 1 = 0 := by rw [hcd] at hu; simpa using hu
    have hno := last_in h hi (show inn (.leaving o to) = some o from rfl) hu1
    obtain ⟨g1, g2, g3, g4, g5⟩ := subPhase_fields { (s.dec o).inc n with phase := n } o n
    have g5' : ∀ p, (subPhase { (s.dec o).inc n with phase := n } o n).cnt p =
        ((s.dec o).inc n).cnt p := fun p => (g5 p).trans (cnt_setphase ..)
    generalize subPhase { (s.dec o).inc n with phase := n } o n = s1 at *
    dsimp only at g1 g2 g3 g4
    have hfail : s1.fail = s.fail := by rw [g2, k2, f2]
    split
    · refine inv_switch (t' := .notify n (some (!s1.fail))) h hi ?_ ?_ hno ?_ ?_ ?_ ?_
        (Or.inl ⟨some (!s1.fail), ?_⟩) ?_ hfail ?_
      · simp only [St.put, g4, k4, f4]
      · intro p; rw [cnt_put, g5', hcd' p]; simp [wPh, ph]
      · intro p hp; simp [inn] at hp; rw [← hp]; exact g1.symm
      · intro h0
        rw [cnt_put, g5'] at h0
        simp only [St.put, g1] at h0
        exact absurd h0 hn0
      · intro h0
        have := h0 n
        rw [cnt_put, g5'] at this
        exact absurd this hn0
      · intro e; cases e
      · simp only [St.put, g1]
      · show (if s1.lm then 1 else 0) + 0 = _ + 0
        rw [g3, k3, f3]
      · rw [hfail]; intro _; rfl
    · rename_i hoth
      have hoth : (s.dec o).cnt n = 0 := Decidable.byContradiction hoth
      refine inv_switch (t' := enter n (!s1.fail)) h hi ?_ ?_ hno ?_ ?_ ?_ ?_
        (Or.inr ?_) ?_ hfail ?_
      · simp only [St.put, g4, k4, f4]
      · intro p; rw [cnt_put, g5', hcd' p, wPh_enter]
      · intro p hp; rw [inn_enter] at hp; cases hp; exact g1.symm
      · intro h0
        rw [cnt_put, g5'] at h0
        simp only [St.put, g1] at h0
        exact absurd h0 hn0
      · intro h0
        have := h0 n
        rw [cnt_put, g5'] at this
        exact absurd this hn0
      · exact enter_ne_sleep _ _ _
      · intro j hji
        simp only [St.put, g1]
        apply no_sleep_of_zero h
        rw [hcd, if_neg hon] at hoth
        simpa using hoth
      · show (if s1.lm then 1 else 0) + 0 = _ + _
        rw [g3, k3, f3, wLoad_enter]
      · rw [hfail]; exact good_enter ..
  · rename_i hu
    have hu' : ((s.dec o).inc n).cnt o ≠ 0 := by rw [hci]; omega
    have hph : ((s.dec o).inc n).phase = o := by rw [k1, f1, ho]
    rw [if_pos (by rw [hph]; exact hon)]
    refine inv_same (t' := .sleep n) h hi ?_ (by simp only [St.put]; rw [hph, ho]) ?_ ?_ ?_ ?_ ?_
      ?_ ?_ (by simp only [St.put]; rw [k2, f2]) ?_
    · simp only [St.put, k4, f4]
    · intro p; rw [cnt_put, hcd' p]; simp [wPh, ph]
    · intro p hp; cases hp
    · intro h0; rw [cnt_put, ← ho] at h0; exact absurd h0 hu'
    · intro h0; have := h0 o; rw [cnt_put] at this; exact absurd this hu'
    · intro e; injection e with e; exact hon (ho.trans e.symm)
    · intro k e; cases e
    · simp only [St.put, k3, f3]; rfl
    · trivial

theorem ph_wake (v : Ph) (t : T) : ph (wake v t) = ph t := by
  unfold wake; split
  · rename_i h; subst h; rfl
  · rfl

theorem inn_wake (v : Ph) (t : T) : inn (wake v t) = inn t := by
  unfold wake; split
  · rename_i h; subst h; rfl
  · rfl

theorem good_wake (f : Bool) (v : Ph) (t : T) : good f (wake v t) ↔ good f t := by
  unfold wake; split
  · rename_i h; subst h; exact Iff.rfl
  · exact Iff.rfl

theorem wLoad_wake (v : Ph) (t : T) : wLoad (wake v t) = wLoad t := by
  unfold wake; split
  · rename_i h; subst h; rfl
  · rfl

theorem wake_notify {v : Ph} {t : T} {p : Ph} {k : Option Bool} :
    wake v t = .notify p k ↔ t = .notify p k := by
  unfold wake; split
  · rename_i h; subst h; simp
  · exact Iff.rfl

theorem wake_sleep {v : Ph} {t : T} {p : Ph} (h : wake v t = .sleep p) : t = .sleep p ∧ p ≠ v := by
  unfold wake at h; split at h
  · cases h
  · refine ⟨h, ?_⟩
    rename_i hn
    intro e; subst e; exact hn h

/-- notify_all() itself. -/
theorem inv_notify {s : St} {i : Nat} (h : Inv s) {v : Ph} {k : Option Bool}
    (hi : s.threads[i]? = some (.notify v k)) (t' : T) (ht' : t' = afterNotify v k) :
    Inv { s with threads := (s.threads.map (wake v)).set i t' } := by
  have hi' : (s.threads.map (wake v))[i]? = some (.notify v k) := by
    rw [List.getElem?_map, hi]
    simp only [Option.map_some, Option.some.injEq]
    exact wake_notify.2 rfl
  have hph : ph t' = ph (.notify v k) := by
    subst ht'; cases k with
    | none => rfl
    | some r => cases v <;> rfl
  have hinn : inn t' = inn (.notify v k) := by
    subst ht'; cases k with
    | none => rfl
    | some r => exact inn_enter v r
  have hget : ∀ (j : Nat) (u : T), (s.threads.map (wake v))[j]? = some u →
      ∃ w, s.threads[j]? = some w ∧ u = wake v w := by
    intro j u hj
    rw [List.getElem?_map] at hj
    obtain ⟨w, hw, rfl⟩ := Option.map_eq_some_iff.1 hj
    exact ⟨w, hw, rfl⟩
  refine ⟨?_, ?_, h.ne, h.unl, ?_, ?_, ?_⟩
  · intro p
    have h2 := tally_set (w := wPh p) (q := t') hi'
    have h3 : tally (wPh p) (s.threads.map (wake v)) = tally (wPh p) s.threads :=
      tally_map (fun t => by simp only [wPh, ph_wake]) _
    have h4 : wPh p t' = wPh p (.notify v k) := by simp only [wPh, hph]
    have h5 := h.cnt p
    show s.cnt p = _
    dsimp only
    omega
  · intro j u p hj hu
    dsimp only at hj
    rcases get_set hj with ⟨_, rfl⟩ | ⟨_, hj⟩
    · rw [hinn] at hu; exact h.inn i _ p hi hu
    · obtain ⟨w, hw, rfl⟩ := hget j u hj
      rw [inn_wake] at hu
      exact h.inn j w p hw hu
  · intro j hj
    dsimp only at hj ⊢
    rcases get_set hj with ⟨_, h'⟩ | ⟨_, hj⟩
    · subst ht'; cases k with
      | none => cases h'
      | some r => exact absurd h'.symm (enter_ne_sleep _ _ _)
    · obtain ⟨w, hw, hws⟩ := hget j _ hj
      obtain ⟨rfl, hpv⟩ := wake_sleep hws.symm
      obtain ⟨m, k', hm⟩ := h.slp j hw
      have hmi : m ≠ i := by
        intro e; subst e
        rw [hi] at hm
        injection hm with hm
        injection hm with hm _
        exact hpv hm.symm
      refine ⟨m, k', ?_⟩
      rw [List.getElem?_set_ne (fun e => hmi e.symm), List.getElem?_map, hm]
      simp only [Option.map_some, Option.some.injEq]
      exact wake_notify.2 rfl
  · have h2 := tally_set (w := wLoad) (q := t') hi'
    have h3 : tally wLoad (s.threads.map (wake v)) = tally wLoad s.threads :=
      tally_map (fun t => wLoad_wake v t) _
    have h4 : wLoad t' = 0 := by
      subst ht'; cases k with
      | none => rfl
      | some r => exact wLoad_enter ..
    have h5 : wLoad (.notify v k) = 0 := rfl
    have h6 := h.lm
    dsimp only
    omega
  · intro j u hj
    dsimp only at hj ⊢
    rcases get_set hj with ⟨_, rfl⟩ | ⟨_, hj⟩
    · subst ht'; cases k with
      | none => trivial
      | some r =>
        have := h.res i _ hi
        simp only [good] at this
        cases v with
        | load => trivial
        | match_ => exact this (by simp)
        | execute => exact this (by simp)
    · obtain ⟨w, hw, rfl⟩ := hget j u hj
      rw [good_wake]
      exact h.res j w hw

theorem leaving_ne {s s' : St} {i : Nat} {op : Op} (h : step s i op = some s')
    (hl : ∀ (j : Nat) (o n : Ph), s.threads[j]? = some (.leaving o (some n)) → o ≠ n) :
    ∀ (j : Nat) (o n : Ph), s'.threads[j]? = some (.leaving o (some n)) → o ≠ n := by
  have key : ∀ (t : T), (∀ o n, t = .leaving o (some n) → o ≠ n) →
      ∀ (j : Nat) (o n : Ph), (s.threads.set i t)[j]? = some (.leaving o (some n)) → o ≠ n := by
    intro t ht j o n hj
    rcases get_set hj with ⟨_, h'⟩ | ⟨_, hj⟩
    · exact ht o n h'.symm
    · exact hl j o n hj
  have hent : ∀ a r o n, enter a r = .leaving o (some n) → o ≠ n := by
    intro a r o n e; unfold enter at e; split at e <;> cases e
  unfold step at h
  split at h
  · cases h
  · rename_i t hi
    split at h
    · cases h
      rename_i n
      unfold lockStep
      dsimp only
      split
      · simp only [St.put, (inc_fields s n).2.2.2.1]; exact key _ (hent _ _)
      · split
        · simp only [St.put, (inc_fields s n).2.2.2.1]; exact key _ (fun o n e => by cases e)
        · simp only [St.put, (inc_fields s n).2.2.2.1]; exact key _ (hent _ _)
    · cases h; exact key _ (fun o n e => by cases e)
    · split at h
      · cases h
        rename_i hon
        exact key _ (fun o' n' e => by cases e; exact hon)
      · cases h
    · cases h; exact key _ (fun o n e => by cases e)
    · split at h
      · cases h; exact key _ (hent _ _)
      · cases h; exact key _ (fun o n e => by cases e)
    · split at h
      · cases h
      · cases h; exact key _ (fun o n e => by cases e)
    · cases h
      rename_i o
      unfold unlockStep
      dsimp only
      split
      · split
        · simp only [St.put, (subPhase_fields _ _ _).2.2.2.1, (dec_fields s o).2.2.2.1]
          exact key _ (fun o n e => by cases e)
        · simp only [St.put, (subPhase_fields _ _ _).2.2.2.1, (dec_fields s o).2.2.2.1]
          exact key _ (fun o n e => by cases e)
      · simp only [St.put, (dec_fields s o).2.2.2.1]
        exact key _ (fun o n e => by cases e)
    · cases h
      rename_i o n
      unfold relockStep
      dsimp only
      split
      · split
        · simp only [St.put, (subPhase_fields _ _ _).2.2.2.1, (inc_fields _ n).2.2.2.1,
            (dec_fields s o).2.2.2.1]
          exact key _ (fun o n e => by cases e)
        · simp only [St.put, (subPhase_fields _ _ _).2.2.2.1, (inc_fields _ n).2.2.2.1,
            (dec_fields s o).2.2.2.1]
          exact key _ (hent _ _)
      · split
        · simp only [St.put, (inc_fields _ n).2.2.2.1, (dec_fields s o).2.2.2.1]
          exact key _ (fun o n e => by cases e)
        · simp only [St.put, (inc_fields _ n).2.2.2.1, (dec_fields s o).2.2.2.1]
          exact key _ (hent _ _)
    · cases h
      rename_i v k
      intro j o n hj
      dsimp only at hj
      rcases get_set hj with ⟨_, h'⟩ | ⟨_, hj⟩
      · cases k with
        | none => cases h'
        | some r => exact hent _ _ _ _ h'.symm
      · rw [List.getElem?_map] at hj
        obtain ⟨w, hw, hw'⟩ := Option.map_eq_some_iff.1 hj
        unfold wake at hw'
        split at hw'
        · cases hw'
        · subst hw'; exact hl j o n hw
    · cases h; exact key _ (fun o n e => by cases e)
    · cases h

theorem inv_step {s s' : St} {i : Nat} {op : Op} (h : Inv s)
    (hl : ∀ (j : Nat) (o n : Ph), s.threads[j]? = some (.leaving o (some n)) → o ≠ n)
    (e : step s i op = some s') : Inv s' := by
  unfold step at e
  split at e
  · cases e
  · rename_i t hi
    have hcz : ∀ {p : Ph}, ph t = some p → s.cnt p ≠ 0 := by
      intro p hp
      have := tally_le (w := wPh p) hi
      have hc := h.cnt p
      have : wPh p t = 1 := by simp [wPh, hp]
      omega
    have hcz' : ∀ {p : Ph}, ph t = some p → s.cnt s.phase ≠ 0 := by
      intro p hp h0; exact hcz hp (h.ne h0 p)
    split at e
    · cases e; exact inv_lock h hi _
    · -- unlock
      cases e
      rename_i o ok
      have ho : o = s.phase := h.inn i _ o hi rfl
      have hlm := h.lm
      have hpos := tally_le (w := wLoad) hi
      refine inv_same (t' := .leaving o none) h hi rfl rfl ?_ ?_ ?_ ?_ ?_ ?_ ?_ rfl ?_
      · intro p; exact rfl
      · intro p hp; cases hp; exact ho
      · intro h0; exact absurd h0 (hcz' rfl)
      · intro h0; exact absurd (h0 _) (hcz' rfl)
      · intro e; cases e
      · intro k e; cases e
      · cases o
        · simp only [wLoad] at hpos ⊢
          split at hlm <;> simp_all
        · simp only [wLoad]; rfl
        · simp only [wLoad]; rfl
      · trivial
    · split at e
      · cases e
        rename_i n o ok hon
        have ho : o = s.phase := h.inn i _ o hi rfl
        have hlm := h.lm
        have hpos := tally_le (w := wLoad) hi
        refine inv_same (t' := .leaving o (some n)) h hi rfl rfl ?_ ?_ ?_ ?_ ?_ ?_ ?_ rfl ?_
        · intro p; exact rfl
        · intro p hp; cases hp; exact ho
        · intro h0; exact absurd h0 (hcz' rfl)
        · intro h0; exact absurd (h0 _) (hcz' rfl)
        · intro e; cases e
        · intro k e; cases e
        · cases o
          · simp only [wLoad] at hpos ⊢
            split at hlm <;> simp_all
          · simp only [wLoad]; rfl
          · simp only [wLoad]; rfl
        · trivial
      · cases e
    · -- setFail
      cases e
      rename_i ok
      have ho : Ph.load = s.phase := h.inn i _ .load hi rfl
      refine ⟨?_, ?_, h.ne, h.unl, ?_, ?_, ?_⟩
      · intro p
        have h2 := tally_set (w := wPh p) (q := .hold .load false) hi
        have h3 := h.cnt p
        have h4 : wPh p (.hold .load false) = wPh p (.hold .load ok) := rfl
        show s.cnt p = tally (wPh p) (s.threads.set i (.hold .load false))
        omega
      · intro j u p hj hu
        rcases get_set hj with ⟨_, rfl⟩ | ⟨_, hj⟩
        · cases hu; exact ho
        · exact h.inn j u p hj hu
      · intro j hj
        rcases get_set hj with ⟨_, h'⟩ | ⟨_, hj⟩
        · cases h'
        · obtain ⟨m, k, hm⟩ := h.slp j hj
          have hmi : m ≠ i := by
            intro e; subst e
            rw [hi] at hm
            cases hm
          exact ⟨m, k, by
            show (s.threads.set i _)[m]? = _
            rw [List.getElem?_set_ne (fun e => hmi e.symm)]; exact hm⟩
      · have h2 := tally_set (w := wLoad) (q := .hold .load false) hi
        have h3 := h.lm
        show tally wLoad (s.threads.set i (.hold .load false)) = if s.lm then 1 else 0
        simp only [wLoad] at h2
        omega
      · intro j u hj
        rcases get_set hj with ⟨_, rfl⟩ | ⟨hji, hj⟩
        · rfl
        · cases u with
          | hold n ok' =>
            exfalso
            have hn := h.inn j _ n hj rfl
            rw [← ho] at hn
            subst hn
            have := tally_le2 (w := wLoad) hji hj hi
            have h3 := h.lm
            simp only [wLoad] at this
            split at h3 <;> omega
          | notify v k =>
            cases k with
            | none => trivial
            | some r =>
              intro hv
              have hn := h.inn j _ v hj rfl
              exact absurd (hn.trans ho.symm) hv
          | _ => trivial
    · -- awakeTry
      rename_i n
      have hlm := h.lm
      split at e
      · cases e
        rename_i hpn
        refine inv_same (t' := enter n (!s.fail)) h hi rfl rfl ?_ ?_ ?_ ?_ ?_ ?_ ?_ rfl ?_
        · intro p; rw [cnt_put, wPh_enter]; simp [wPh, ph]
        · intro p hp; rw [inn_enter] at hp; cases hp; exact hpn.symm
        · intro h0; exact absurd h0 (hcz' rfl)
        · intro h0; exact absurd (h0 _) (hcz' rfl)
        · exact enter_ne_sleep _ _ _
        · intro k e; cases e
        · rw [wLoad_enter]; rfl
        · exact good_enter ..
      · cases e
        rename_i hpn
        refine inv_same (t' := .sleep n) h hi rfl rfl ?_ ?_ ?_ ?_ ?_ ?_ ?_ rfl ?_
        · intro p; exact rfl
        · intro p hp; cases hp
        · intro h0; exact absurd h0 (hcz' rfl)
        · intro h0; exact absurd (h0 _) (hcz' rfl)
        · intro e; injection e with e; exact hpn e.symm
        · intro k e; cases e
        · rfl
        · trivial
    · -- loadAcquire
      split at e
      · cases e
      · cases e
        rename_i hlm0
        have ho : Ph.load = s.phase := h.inn i _ .load hi rfl
        refine inv_same (t' := .hold .load (!s.fail)) h hi rfl rfl ?_ ?_ ?_ ?_ ?_ ?_ ?_ rfl ?_
        · intro p; exact rfl
        · intro p hp; cases hp; exact ho
        · intro h0; exact absurd h0 (hcz' rfl)
        · intro h0; exact absurd (h0 _) (hcz' rfl)
        · intro e; cases e
        · intro k e; cases e
        · simp [wLoad, hlm0]
        · rfl
    · cases e; exact inv_unlock h hi
    · cases e; exact inv_relock h hi (hl _ _ _ hi)
    · cases e; exact inv_notify h hi _ rfl
    · -- spurious
      cases e
      rename_i n
      by_cases hpn : n = s.phase
      · -- handled directly: the sleeper is gone
        refine ⟨?_, ?_, h.ne, h.unl, ?_, ?_, ?_⟩
        · intro p
          have h2 := tally_set (w := wPh p) (q := .awake n) hi
          have h3 := h.cnt p
          have h4 : wPh p (.awake n) = wPh p (.sleep n) := rfl
          show s.cnt p = tally (wPh p) (s.threads.set i (.awake n))
          omega
        · intro j u p hj hu
          rcases get_set hj with ⟨_, rfl⟩ | ⟨_, hj⟩
          · cases hu
          · exact h.inn j u p hj hu
        · intro j hj
          rcases get_set hj with ⟨_, h'⟩ | ⟨_, hj⟩
          · cases h'
          · obtain ⟨m, k, hm⟩ := h.slp j hj
            have hmi : m ≠ i := by
              intro e; subst e
              rw [hi] at hm
              cases hm
            exact ⟨m, k, by
              show (s.threads.set i _)[m]? = _
              rw [List.getElem?_set_ne (fun e => hmi e.symm)]; exact hm⟩
        · have h2 := tally_set (w := wLoad) (q := .awake n) hi
          have h3 := h.lm
          show tally wLoad (s.threads.set i (.awake n)) = if s.lm then 1 else 0
          simp only [wLoad] at h2
          omega
        · intro j u hj
          rcases get_set hj with ⟨_, rfl⟩ | ⟨_, hj⟩
          · trivial
          · exact h.res j u hj
      · refine inv_same (t' := .awake n) h hi rfl rfl ?_ ?_ ?_ ?_ ?_ ?_ ?_ rfl ?_
        · intro p; exact rfl
        · intro p hp; cases hp
        · intro h0; exact absurd h0 (hcz' rfl)
        · intro h0; exact absurd (h0 _) (hcz' rfl)
        · intro e; cases e
        · intro k e; cases e
        · rfl
        · trivial
    · cases e

theorem get_replicate {N j : Nat} {u : T} (h : (List.replicate N T.idle)[j]? = some u) :
    u = .idle := by
  have := List.mem_of_getElem? h
  exact (List.mem_replicate.1 this).2

theorem inv_reach {N : Nat} {s : St} (h : Reach N s) :
    Inv s ∧ ∀ (j : Nat) (o n : Ph), s.threads[j]? = some (.leaving o (some n)) → o ≠ n := by
  induction h with
  | init =>
    refine ⟨⟨?_, ?_, ?_, ?_, ?_, ?_, ?_⟩, ?_⟩
    · intro p
      have := tally_replicate (wPh p) T.idle N
      have h0 : wPh p T.idle = 0 := rfl
      rw [h0] at this
      rw [this]; cases p <;> rfl
    · intro j u p hj hu
      have := get_replicate hj; subst this; cases hu
    · intro _ p; cases p <;> rfl
    · intro _; rfl
    · intro j hj; have := get_replicate hj; cases this
    · have := tally_replicate wLoad T.idle N
      rw [this]; rfl
    · intro j u hj
      have := get_replicate hj; subst this; trivial
    · intro j o n hj; have := get_replicate hj; cases this
  | step _ e ih => exact ⟨inv_step ih.1 ih.2 e, leaving_ne e ih.2⟩

end Verif.PhaseMutex
