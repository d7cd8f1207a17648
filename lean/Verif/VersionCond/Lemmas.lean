import Verif.VersionCond.Model

/-!
# Version constraints of dependencies: lemmas
-/

set_option linter.unusedSimpArgs false

namespace Verif.VersionCond

/-! ## Numbers and order -/

/-- The first fifteen digits. -/
def triple (a b c : Nat) : Nat := (a * 100000 + b) * 100000 + c

theorem triple_lt {a b c a' b' c' : Nat} (hb : b ≤ 99999) (hc : c ≤ 99999)
    (hb' : b' ≤ 99999) (hc' : c' ≤ 99999) :
    TripleBefore a b c a' b' c' ↔ triple a b c < triple a' b' c' := by
  simp only [TripleBefore, triple]
  omega

theorem triple_eq {a b c a' b' c' : Nat} (hb : b ≤ 99999) (hc : c ≤ 99999)
    (hb' : b' ≤ 99999) (hc' : c' ≤ 99999) :
    (a = a' ∧ b = b' ∧ c = c') ↔ triple a b c = triple a' b' c' := by
  simp only [triple]
  omega

theorem triple_pos {a b c : Nat} (h : ¬ (a = 0 ∧ b = 0 ∧ c = 0)) : 1 ≤ triple a b c := by
  simp only [triple]
  omega

/-- `major.minor.patch` of the version as one number. -/
def Version.triple (v : Version) : Nat := VersionCond.triple v.major v.minor v.patch

theorem number_eq (v : Version) :
    v.number = (if v.stage = .release then v.triple else v.triple - 1) * 10000 +
      v.stage.digits * 10 + (if v.snap = 0 then 0 else 1) := rfl

theorem before_triple {v w : Version} (hv : v.Ok) (hw : w.Ok) :
    v.Before w ↔ v.triple < w.triple ∨ (v.triple = w.triple ∧
      (v.stage.Before w.stage ∨ (v.stage = w.stage ∧ v.snap < w.snap))) := by
  rw [Version.Before, Version.triple, Version.triple,
    triple_lt hv.2.1 hv.2.2.1 hw.2.1 hw.2.2.1,
    ← triple_eq hv.2.1 hv.2.2.1 hw.2.1 hw.2.2.1]
  simp only [and_assoc]

theorem same_triple {v w : Version} (hv : v.Ok) (hw : w.Ok) :
    v.Same w ↔ v.triple = w.triple ∧ v.stage = w.stage ∧ v.snap = w.snap := by
  rw [Version.Same, Version.triple, Version.triple,
    ← triple_eq hv.2.1 hv.2.2.1 hw.2.1 hw.2.2.1]
  simp only [and_assoc]

/-- The limits of the stage. -/
def StageOk (s : Stage) (n : Nat) : Prop :=
  match s with
  | .alpha k => k ≤ 499 ∧ (k = 0 → n ≠ 0)
  | .beta k => k ≤ 499 ∧ (k = 0 → n ≠ 0)
  | .release => n = 0

theorem stageOk {v : Version} (hv : v.Ok) : StageOk v.stage v.snap := by
  obtain ⟨a, b, c, s, n, r⟩ := v
  cases s <;> exact hv.2.2.2.2

theorem before_iff {v w : Version} (hv : v.Ok) (hw : w.Ok) :
    v.Before w ↔ v.number < w.number ∨ (v.number = w.number ∧ v.snap < w.snap) := by
  rw [before_triple hv hw, number_eq, number_eq]
  have h1 := stageOk hv
  have h2 := stageOk hw
  have h3 : 1 ≤ v.triple := triple_pos hv.2.2.2.1
  have h4 : 1 ≤ w.triple := triple_pos hw.2.2.2.1
  generalize v.triple = x at *
  generalize w.triple = y at *
  generalize v.stage = s at *
  generalize w.stage = s' at *
  cases s <;> cases s' <;>
    simp only [StageOk, Stage.Before, Stage.digits, Stage.alpha.injEq, Stage.beta.injEq,
      reduceCtorEq, if_true, if_false,
      true_or, or_true, false_or, or_false, true_and, and_true, false_and, and_false, false_iff] at * <;>
    (repeat' split) <;> omega

theorem same_iff {v w : Version} (hv : v.Ok) (hw : w.Ok) :
    v.Same w ↔ v.number = w.number ∧ v.snap = w.snap := by
  rw [same_triple hv hw, number_eq, number_eq]
  have h1 := stageOk hv
  have h2 := stageOk hw
  have h3 : 1 ≤ v.triple := triple_pos hv.2.2.2.1
  have h4 : 1 ≤ w.triple := triple_pos hw.2.2.2.1
  generalize v.triple = x at *
  generalize w.triple = y at *
  generalize v.stage = s at *
  generalize w.stage = s' at *
  cases s <;> cases s' <;>
    simp only [StageOk, Stage.digits, Stage.alpha.injEq, Stage.beta.injEq,
      reduceCtorEq, if_true, if_false,
      true_or, or_true, false_or, or_false, true_and, and_true, false_and, and_false, false_iff] at * <;>
    (repeat' split) <;> omega

theorem snap_zero {v w : Version} (hv : v.Ok) (hw : w.Ok) (h : v.number = w.number)
    (hz : w.snap = 0) : v.snap = 0 := by
  revert h
  rw [number_eq, number_eq]
  have h1 := stageOk hv
  have h2 := stageOk hw
  have h3 : 1 ≤ v.triple := triple_pos hv.2.2.2.1
  have h4 : 1 ≤ w.triple := triple_pos hw.2.2.2.1
  generalize v.triple = x at *
  generalize w.triple = y at *
  generalize v.stage = s at *
  generalize w.stage = s' at *
  cases s <;> cases s' <;>
    simp only [StageOk, Stage.digits, reduceCtorEq, if_true, if_false,
      true_or, or_true, false_or, or_false, true_and, and_true, false_and, and_false, false_iff] at * <;>
    (repeat' split) <;> intros <;> omega

theorem earliest_iff {v : Version} {a b c : Nat} (hv : v.Ok)
    (hb : (Bound.earliest a b c).Ok) :
    TripleBefore v.major v.minor v.patch a b c ↔
      v.number < (encode (.earliest a b c)).version := by
  rw [triple_lt hv.2.1 hv.2.2.1 hb.2.1 hb.2.2.1, number_eq]
  show v.triple < triple a b c ↔ _ < (triple a b c - 1) * 10000 + 1
  have h1 := stageOk hv
  have h3 : 1 ≤ v.triple := triple_pos hv.2.2.2.1
  have h4 : 1 ≤ triple a b c := triple_pos hb.2.2.2
  generalize v.triple = x at *
  generalize triple a b c = y at *
  generalize v.stage = s at *
  cases s <;>
    simp only [StageOk, Stage.digits, reduceCtorEq, if_true, if_false,
      true_or, or_true, false_or, or_false, true_and, and_true, false_and, and_false, false_iff] at * <;>
    split <;> omega

theorem encode_inj {b b' : Bound} (hb : b.Ok) (hb' : b'.Ok) (h : encode b = encode b') :
    (∃ v w, b = .ver v ∧ b' = .ver w ∧ v.Same w ∧ v.rev = w.rev) ∨ b = b' := by
  cases b with
  | ver v =>
    cases b' with
    | ver w =>
      simp only [encode, SV.mk.injEq] at h
      exact .inl ⟨v, w, rfl, rfl, (same_iff hb hb').2 ⟨h.1, h.2.1⟩, h.2.2⟩
    | earliest x y z =>
      exfalso
      simp only [encode, SV.mk.injEq] at h
      have hs := stageOk hb
      have h1 := h.1
      rw [number_eq] at h1
      generalize v.stage = s at *
      cases s <;>
        simp only [StageOk, Stage.digits, reduceCtorEq, if_true, if_false, h.2.1] at * <;> omega
  | earliest x y z =>
    cases b' with
    | ver w =>
      exfalso
      simp only [encode, SV.mk.injEq] at h
      have hs := stageOk hb'
      have h1 := h.1
      rw [number_eq] at h1
      generalize w.stage = s at *
      cases s <;>
        simp only [StageOk, Stage.digits, reduceCtorEq, if_true, if_false, ← h.2.1] at * <;> omega
    | earliest x' y' z' =>
      refine .inr ?_
      simp only [encode, SV.mk.injEq] at h
      have p1 : 1 ≤ triple x y z := triple_pos hb.2.2.2
      have p2 : 1 ≤ triple x' y' z' := triple_pos hb'.2.2.2
      have h1 : (triple x y z - 1) * 10000 + 1 = (triple x' y' z' - 1) * 10000 + 1 := h.1
      have h2 : triple x y z = triple x' y' z' := by omega
      obtain ⟨rfl, rfl, rfl⟩ := (triple_eq hb.2.1 hb.2.2.1 hb'.2.1 hb'.2.2.1).2 h2
      rfl

end Verif.VersionCond
