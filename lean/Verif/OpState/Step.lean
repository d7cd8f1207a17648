import Verif.OpState.Lemmas

/-! The invariant is preserved by every step. -/
namespace Verif.OpState
open Verif.TargetState Verif.Util

set_option hygiene false in
macro "nums " o:term:max a:term:max u:term:max x:term:max e:term:max f:term:max " => " l:term:max
    o':term:max a':term:max x':term:max e':term:max f':term:max : tactic => `(tactic| (
  intro t hn
  replace hn : InvP s $o _ $a (tally isDep s.pcs) (t + $u) $x $e $f := hn
  change InvP _ $o' $l $a' (tally isDep s.pcs) t $x' $e' $f'
  obtain ⟨a1, a2, a3, a4, a5, a6, a7, a8, a9, a10, a11, a12, a13, a14, a15, a16, a17⟩ := hn
  constructor <;> (try simp only [failMatch, S.put, S.base] at *) <;> (try assumption) <;>
    (try omega) <;>
    (try first
      | (intros; first | rfl | assumption | contradiction | trivial)
      | (left; exact ⟨by omega, trivial⟩)
      | (right; exact ⟨by omega, trivial⟩)
      | (intros; apply a4 <;> first | omega | trivial)
      | (intros; apply a5 <;> omega)
      | (intros; apply a6 <;> omega)
      | (intros; apply a7 <;> omega)
      | (intros; apply a9 <;> first | omega | assumption)
      | (intros; apply a13 <;> first | omega | assumption)
      | (intros; apply a15 <;> first | omega | assumption)
      | (intro h1; have := a9 h1 (by omega); omega)
      | (intro h1 h4; have := a9 h1 (by omega); omega)
      | (intro h1
         first
           | exact ⟨by have := (a17 h1).1; omega, (a17 h1).2⟩
           | (exfalso; have := (a17 h1).1; omega)
           | (exfalso; have h3 := (a17 h1).2; rw [hst] at h3; cases h3))
      | (have hr : s.refail = false := by
           cases hr : s.refail
           · rfl
           · have h3 := (a17 hr).2; rw [hst] at h3; cases h3
         have := a9 hr (by omega)
         omega)
      | (intro h1; rcases a14 h1 with h | h | h | h | h <;> omega)
      | (intro h1; right; right; right; right; trivial)
      | (intro h1 h2; have h3 := a12 h1 h2
         exact ⟨fun h4 h5 => h3.1 (by omega) h5,
           fun h4 => h3.2 (h4.imp (fun h5 => by omega) id)⟩))))

theorem no_dep {s : S} (h : Inv s) (hl : s.lvl < 4) : tally isDep s.pcs = 0 := by
  apply Decidable.byContradiction
  intro hne
  obtain ⟨j, q, hj, hq⟩ := tally_pos hne
  have := h.oks j q hj
  cases q <;> first | exact absurd rfl hq | (simp only [ok] at this; omega)

theorem inv_casWin {s : S} (h : Inv s) {i e : Nat} {o : Opt} {w : Bool}
    (hi : s.pcs[i]? = some (.lockTry e o w)) (ht : s.tc = e) :
    Inv { s.put i (.lockGot e o) with tc := s.base + 6 } := by
  obtain ⟨k1, k2, k3⟩ := h.oks i _ hi
  have hl : s.lvl = e - s.base := by
    unfold S.lvl; rw [if_pos (by omega), ht]
  refine inv_own h hi (free_zero h (by omega) hi) (p' := .lockGot e o) (l' := e - s.base)
    ?_ ?_ ?_ ?_ ?_ ?_ ?_ ?_
  · rfl
  · rfl
  · rfl
  · left; exact ⟨rfl, Nat.le_refl _, rfl⟩
  · exact ⟨rfl, rfl, rfl⟩
  · nums 0 0 0 0 0 0 => (e - s.base) 1 0 0 0 0
  · exact ⟨k1, k2⟩
  · apply ok_mono
    · exact id
    · rw [hl]; exact id
    · intro _ _ h3; rw [hl]; exact ⟨h3, id⟩
    · intro _ h2; rw [hl] at h2; exact ⟨h2, rfl⟩
    · intro h1; rw [k1] at h1; cases h1

theorem inv_gotFirst {s : S} (h : Inv s) {i e : Nat} {o : Opt}
    (hi : s.pcs[i]? = some (.lockGot e o)) (he : e ≤ s.base) :
    Inv { s.put i (.locked 1 o) with deps := 0, curA := 0 } := by
  obtain ⟨k1, k2⟩ := h.oks i _ hi
  have hl : s.lvl = e - s.base := lvl_own h hi rfl
  obtain ⟨hb, hz⟩ := rest_zero h hi rfl
  have hnd := no_dep h (by omega)
  have hl0 : s.lvl = 0 := by omega
  refine inv_own h hi hz (p' := .locked 1 o) (l' := 1) ?_ ?_ ?_ ?_ ?_ ?_ ?_ ?_
  · rfl
  · rfl
  · rfl
  · left; exact ⟨rfl, hb, rfl⟩
  · exact ⟨rfl, rfl, rfl⟩
  · nums 1 0 0 0 0 0 => 1 1 0 0 0 0
  · exact ⟨by omega, by omega, by omega⟩
  · apply ok_mono
    · exact id
    · omega
    · omega
    · omega
    · intro h1; rw [k1] at h1; cases h1

theorem inv_gotSkip {s : S} (h : Inv s) {i e : Nat} {o : Opt}
    (hi : s.pcs[i]? = some (.lockGot e o)) (he : s.base + 4 ≤ e) :
    Inv { s.put i .lockSkip with tc := e } := by
  obtain ⟨k1, k2⟩ := h.oks i _ hi
  have hl : s.lvl = e - s.base := lvl_own h hi rfl
  obtain ⟨hb, hz⟩ := rest_zero h hi rfl
  refine inv_own h hi hz (p' := .lockSkip) (l' := e - s.base) ?_ ?_ ?_ ?_ ?_ ?_ ?_ ?_
  · rfl
  · rfl
  · rfl
  · right; exact ⟨rfl, by dsimp only; omega, rfl⟩
  · exact ⟨rfl, rfl, rfl⟩
  · nums 1 0 0 0 0 0 => (e - s.base) 0 0 0 0 0
  · exact ⟨k1, by omega⟩
  · apply ok_mono
    · exact id
    · omega
    · intro _ _ h3; rw [hl]; exact ⟨h3, id⟩
    · intro _ h2; rw [hl] at h2; exact ⟨h2, rfl⟩
    · intro h1; rw [k1] at h1; cases h1

theorem inv_gotLock {s : S} (h : Inv s) {i e : Nat} {o : Opt}
    (hi : s.pcs[i]? = some (.lockGot e o)) (he : ¬ e ≤ s.base) :
    Inv (s.put i (.locked (e - s.base) o)) := by
  obtain ⟨k1, k2⟩ := h.oks i _ hi
  have hl : s.lvl = e - s.base := lvl_own h hi rfl
  obtain ⟨hb, hz⟩ := rest_zero h hi rfl
  refine inv_own h hi hz (p' := .locked (e - s.base) o) (l' := e - s.base) ?_ ?_ ?_ ?_ ?_ ?_ ?_ ?_
  · rfl
  · rfl
  · rfl
  · left; exact ⟨rfl, hb, rfl⟩
  · exact ⟨rfl, rfl, rfl⟩
  · nums 1 0 0 0 0 0 => (e - s.base) 1 0 0 0 0
  · exact ⟨by omega, by omega, fun _ => k1⟩
  · apply ok_mono
    · exact id
    · omega
    · intro _ _ h3; rw [hl]; exact ⟨h3, id⟩
    · intro _ h2; rw [hl] at h2; exact ⟨h2, rfl⟩
    · intro h1; rw [k1] at h1; cases h1

theorem inv_matchTo {s : S} (h : Inv s) {i off n : Nat} {o : Opt}
    (hi : s.pcs[i]? = some (.locked off o)) (he : s.exe = false) (hoff : off = 1 ∨ off = 2)
    (hn : n = 2 ∨ n = 3) : Inv (s.put i (.locked n o)) := by
  obtain ⟨k1, k2, k3⟩ := h.oks i _ hi
  have hl : s.lvl = off := lvl_own h hi rfl
  obtain ⟨hb, hz⟩ := rest_zero h hi rfl
  have hnd := no_dep h (by omega)
  refine inv_own h hi hz (p' := .locked n o) (l' := n) ?_ ?_ ?_ ?_ ?_ ?_ ?_ ?_
  · rfl
  · rfl
  · rfl
  · left; exact ⟨rfl, hb, rfl⟩
  · exact ⟨rfl, rfl, rfl⟩
  · rw [hl]
    nums 1 0 0 0 0 0 => n 1 0 0 0 0
  · exact ⟨by omega, by omega, by omega⟩
  · apply ok_mono
    · exact id
    · omega
    · omega
    · omega
    · intro h1; rw [he] at h1; cases h1

theorem inv_ruleFail {s : S} (h : Inv s) {i off : Nat} {o : Opt}
    (hi : s.pcs[i]? = some (.locked off o)) (he : s.exe = false) :
    Inv { failMatch s i off o with applies := s.applies + (if off = 3 then 1 else 0) } := by
  obtain ⟨k1, k2, k3⟩ := h.oks i _ hi
  have hl : s.lvl = off := lvl_own h hi rfl
  obtain ⟨hb, hz⟩ := rest_zero h hi rfl
  have hao : allOptions ≠ 0 := by decide
  refine inv_own h hi hz (p' := .locked 4 o) (l' := 4) ?_ ?_ ?_ ?_ ?_ ?_ ?_ ?_
  · rfl
  · rfl
  · rfl
  · left; exact ⟨rfl, hb, rfl⟩
  · exact ⟨rfl, rfl, rfl⟩
  · rw [hl]
    have hrf : ∀ {b : Bool} {n : Nat}, (b || decide (4 ≤ n)) = false → b = false ∧ n < 4 := by
      intro b n hh
      rw [Bool.or_eq_false_iff] at hh
      exact ⟨hh.1, by have := hh.2; simp at this; omega⟩
    have hrf : ∀ {b : Bool} {n : Nat}, (b || decide (4 ≤ n)) = false → b = false ∧ n < 4 := by
      intro b n hh
      rw [Bool.or_eq_false_iff] at hh
      exact ⟨hh.1, by have := hh.2; simp at this; omega⟩
    nums 1 0 0 0 0 0 => 4 1 0 0 0 0
    · split
      · have := a2 (by omega); omega
      · omega
    · intro h1 _; exact a9 (hrf h1).1 (by have := (hrf h1).2; omega)
    · intro h1 h2
      obtain ⟨h3, h4⟩ := hrf h1
      have := (a12 h3 h2).2 (Or.inl (by omega))
      exact ⟨fun _ h5 => TState.noConfusion h5, fun _ => this⟩
    · intro h1
      obtain ⟨h2, h3⟩ := hrf h1
      rcases a14 h2 with h | h | h | h | h <;> omega
    · intro h1; exact a16 (hrf h1).1
  · exact ⟨by omega, by omega, fun _ => he⟩
  · apply ok_mono
    · intro h1; simp only [failMatch, Bool.or_eq_false_iff] at h1; exact h1.1
    · intro _; omega
    · intro h1 h2 _
      simp only [failMatch, Bool.or_eq_false_iff, decide_eq_false_iff_not] at h1
      omega
    · intro h1 h2
      simp only [failMatch, Bool.or_eq_false_iff, decide_eq_false_iff_not] at h1
      omega
    · intro h1; rw [he] at h1; cases h1

theorem inv_apply {s : S} (h : Inv s) {i : Nat} {o c : Opt} {np ph : Bool}
    (hi : s.pcs[i]? = some (.locked 3 o)) (he : s.exe = false) (hc : c ≠ 0) :
    Inv { s.put i (.applying c np ph) with
          applies := s.applies + 1, cur := c, curA := c, now := true } := by
  have hl : s.lvl = 3 := lvl_own h hi rfl
  obtain ⟨hb, hz⟩ := rest_zero h hi rfl
  refine inv_own h hi hz (p' := .applying c np ph) (l' := 3) ?_ ?_ ?_ ?_ ?_ ?_ ?_ ?_
  · rfl
  · rfl
  · rfl
  · left; exact ⟨rfl, hb, rfl⟩
  · exact ⟨rfl, rfl, rfl⟩
  · nums 1 0 0 0 0 0 => 3 1 1 0 0 0
  · exact ⟨he, hc⟩
  · apply ok_mono
    · exact id
    · omega
    · omega
    · omega
    · intro h1; rw [he] at h1; cases h1

theorem inv_setRecipe {s : S} (h : Inv s) {i : Nat} {c : Opt} {np ph : Bool}
    (hi : s.pcs[i]? = some (.applying c np ph)) :
    Inv { s.put i (.locked 4 c) with
               state := if ph then .failed else if np then .unchanged else .unknown,
               gt := s.gt + (if np then 0 else 1),
               setOn := some s.on, phfail := s.phfail || ph } := by
  obtain ⟨k1, k2⟩ := h.oks i _ hi
  have hl : s.lvl = 3 := lvl_own h hi rfl
  obtain ⟨hb, hz⟩ := rest_zero h hi rfl
  refine inv_own h hi hz (p' := .locked 4 c) (l' := 4) ?_ ?_ ?_ ?_ ?_ ?_ ?_ ?_
  · rfl
  · rfl
  · rfl
  · left; exact ⟨rfl, hb, rfl⟩
  · exact ⟨rfl, rfl, rfl⟩
  · rw [hl]
    nums 1 1 0 0 0 0 => 4 1 0 0 0 0
    · intro h1 h2
      rw [Bool.or_eq_false_iff] at h2
      have := (a12 h1 h2.1).2 (Or.inl (by omega))
      rw [h2.2, this]
      cases np <;> simp
    · intro _ _; cases ph <;> cases np <;> simp
  · exact ⟨by omega, by omega, fun _ => k1⟩
  · apply ok_mono
    · exact id
    · omega
    · omega
    · omega
    · intro h1; rw [k1] at h1; cases h1

theorem inv_reapply {s : S} (h : Inv s) {i : Nat} {o c : Opt}
    (hi : s.pcs[i]? = some (.locked 4 o)) (he : s.exe = false) (hc : c ≠ 0) :
    Inv { s.put i (.locked 4 o) with cur := c, curA := c } := by
  have hl : s.lvl = 4 := lvl_own h hi rfl
  obtain ⟨hb, hz⟩ := rest_zero h hi rfl
  refine inv_own h hi hz (p' := .locked 4 o) (l' := 4) ?_ ?_ ?_ ?_ ?_ ?_ ?_ ?_
  · rfl
  · rfl
  · rfl
  · left; exact ⟨rfl, hb, rfl⟩
  · exact ⟨rfl, rfl, rfl⟩
  · nums 1 0 0 0 0 0 => 4 1 0 0 0 0
  · exact ⟨by omega, by omega, fun _ => he⟩
  · apply ok_mono
    · exact id
    · omega
    · intro _ _ _; exact ⟨hl, id⟩
    · omega
    · intro h1; rw [he] at h1; cases h1

theorem inv_unlock {s : S} (h : Inv s) {i off : Nat} {o : Opt}
    (hi : s.pcs[i]? = some (.locked off o)) (he : s.exe = false) :
    Inv { s.put i (if 4 ≤ off then .matched s.state else .idle) with tc := off + s.base } := by
  obtain ⟨k1, k2, k3⟩ := h.oks i _ hi
  have hl : s.lvl = off := lvl_own h hi rfl
  obtain ⟨hb, hz⟩ := rest_zero h hi rfl
  refine inv_own h hi hz (p' := if 4 ≤ off then .matched s.state else .idle) (l' := off)
    ?_ ?_ ?_ ?_ ?_ ?_ ?_ ?_
  · rfl
  · rfl
  · rfl
  · right
    refine ⟨by split <;> rfl, by dsimp only; omega, by dsimp only; omega⟩
  · refine ⟨rfl, by split <;> rfl, by split <;> rfl⟩
  · have e1 : own (if 4 ≤ off then .matched s.state else .idle) = 0 := by split <;> rfl
    have e2 : isApp (if 4 ≤ off then .matched s.state else .idle) = 0 := by split <;> rfl
    have e3 : exOwn (if 4 ≤ off then .matched s.state else .idle) = 0 := by split <;> rfl
    have e4 : isExe (if 4 ≤ off then .matched s.state else .idle) = 0 := by split <;> rfl
    have e5 : isFin (if 4 ≤ off then .matched s.state else .idle) = 0 := by split <;> rfl
    rw [e1, e2, e3, e4, e5, hl]
    nums 1 0 0 0 0 0 => off 0 0 0 0 0
  · split
    · exact ⟨by omega, fun h1 _ _ => h1⟩
    · trivial
  · apply ok_mono
    · exact id
    · omega
    · intro _ _ h2; rw [hl]; exact ⟨h2, id⟩
    · intro _ h2; rw [hl] at h2; exact ⟨h2, rfl⟩
    · intro h1; rw [he] at h1; cases h1

theorem inv_execNoop {s : S} (h : Inv s) {i : Nat} {c : Bool}
    (hi : s.pcs[i]? = some (.execTry c)) (ht : s.tc = s.base + 4)
    (hst : s.state = .unchanged ∨ s.state = .failed) :
    Inv ({ s with tc := s.base + 6 }.put i .noop) := by
  obtain ⟨k1, k2, k3⟩ := h.oks i _ hi
  have hl : s.lvl = 4 := by unfold S.lvl; rw [if_pos (by omega), ht]; omega
  refine inv_own h hi (free_zero h (by omega) hi) (p' := .noop) (l' := 4) ?_ ?_ ?_ ?_ ?_ ?_ ?_ ?_
  · rfl
  · rfl
  · rfl
  · left; exact ⟨rfl, Nat.le_refl _, rfl⟩
  · exact ⟨rfl, rfl, rfl⟩
  · nums 0 0 (isTry (.execTry c)) 0 0 0 => 4 1 0 1 0 0
  · exact ⟨k1, hst⟩
  · apply ok_mono
    · exact id
    · omega
    · intro _ _ _; exact ⟨hl, id⟩
    · omega
    · intro _ _; right; simp [exOwn]

theorem inv_execRun {s : S} (h : Inv s) {i : Nat} {c : Bool}
    (hi : s.pcs[i]? = some (.execTry c)) (ht : s.tc = s.base + 4) (hst : s.state = .unknown) :
    Inv { { s with tc := s.base + 6 }.put i .executing with execs := s.execs + 1 } := by
  obtain ⟨k1, k2, k3⟩ := h.oks i _ hi
  have hl : s.lvl = 4 := by unfold S.lvl; rw [if_pos (by omega), ht]; omega
  refine inv_own h hi (free_zero h (by omega) hi) (p' := .executing) (l' := 4)
    ?_ ?_ ?_ ?_ ?_ ?_ ?_ ?_
  · rfl
  · rfl
  · rfl
  · left; exact ⟨rfl, Nat.le_refl _, rfl⟩
  · exact ⟨rfl, rfl, rfl⟩
  · nums 0 0 (isTry (.execTry c)) 0 0 0 => 4 1 0 1 1 0
  · exact ⟨k1, hst⟩
  · apply ok_mono
    · exact id
    · omega
    · intro _ _ _; exact ⟨hl, id⟩
    · omega
    · intro _ _; right; simp [exOwn]

theorem inv_finishNoop {s : S} (h : Inv s) {i : Nat} (hi : s.pcs[i]? = some .noop) :
    Inv { s.put i (.done (trans s.state)) with tc := s.base + 5 } := by
  obtain ⟨k1, k2⟩ := h.oks i _ hi
  have hl : s.lvl = 4 := lvl_own h hi rfl
  obtain ⟨hb, hz⟩ := rest_zero h hi rfl
  refine inv_own h hi hz (p' := .done (trans s.state)) (l' := 5) ?_ ?_ ?_ ?_ ?_ ?_ ?_ ?_
  · rfl
  · rfl
  · rfl
  · right; exact ⟨rfl, by dsimp only; omega, by dsimp only; omega⟩
  · exact ⟨rfl, rfl, rfl⟩
  · rw [hl]
    nums 1 0 0 1 0 0 => 5 0 0 0 0 0
    · intro h1 h2
      have := (a12 h1 h2).2 (Or.inr (by rcases k2 with h | h <;> rw [h] <;> simp))
      exact ⟨fun h3 => by omega, fun _ => this⟩
  · intro _; exact ⟨rfl, rfl⟩
  · apply ok_mono
    · exact id
    · omega
    · omega
    · omega
    · intro _ _; left; rfl

theorem inv_finishDir {s : S} (h : Inv s) {i : Nat} (hi : s.pcs[i]? = some .noop)
    (hst : s.state = .unchanged) (r : TState) :
    Inv { s.put i (.done (trans r)) with
               tc := s.base + 5, state := r, setOn := some s.on, execs := s.execs + 1 } := by
  obtain ⟨k1, k2⟩ := h.oks i _ hi
  have hl : s.lvl = 4 := lvl_own h hi rfl
  obtain ⟨hb, hz⟩ := rest_zero h hi rfl
  refine inv_own h hi hz (p' := .done (trans r)) (l' := 5) ?_ ?_ ?_ ?_ ?_ ?_ ?_ ?_
  · rfl
  · rfl
  · rfl
  · right; exact ⟨rfl, by dsimp only; omega, by dsimp only; omega⟩
  · exact ⟨rfl, rfl, rfl⟩
  · rw [hl]
    nums 1 0 0 1 0 0 => 5 0 0 0 0 0
    · intro h1 h2
      have := (a12 h1 h2).2 (Or.inr (by rw [hst]; simp))
      exact ⟨fun h3 => by omega, fun _ => this⟩
  · intro _; exact ⟨rfl, rfl⟩
  · apply ok_mono
    · exact id
    · omega
    · omega
    · omega
    · intro _ _; left; rfl

theorem inv_finish {s : S} (h : Inv s) {i : Nat} (hi : s.pcs[i]? = some .executing)
    (r : TState) :
    Inv { s.put i (.finishing r) with state := r, setOn := some s.on } := by
  obtain ⟨k1, k2⟩ := h.oks i _ hi
  have hl : s.lvl = 4 := lvl_own h hi rfl
  obtain ⟨hb, hz⟩ := rest_zero h hi rfl
  refine inv_own h hi hz (p' := .finishing r) (l' := 5) ?_ ?_ ?_ ?_ ?_ ?_ ?_ ?_
  · rfl
  · rfl
  · rfl
  · left; exact ⟨rfl, hb, rfl⟩
  · exact ⟨rfl, rfl, rfl⟩
  · rw [hl]
    nums 1 0 0 1 1 0 => 5 1 0 1 1 1
    · intro h1 h2
      have := (a12 h1 h2).1 trivial k2
      exact ⟨fun h3 => by omega, fun _ => this⟩
    · intro h1
      have h3 := (a17 h1).2
      rw [k2] at h3
      cases h3
  · exact ⟨k1, rfl⟩
  · apply ok_mono
    · exact id
    · omega
    · omega
    · omega
    · intro _ _; right; simp [exOwn]

theorem inv_publish {s : S} (h : Inv s) {i : Nat} {r : TState}
    (hi : s.pcs[i]? = some (.finishing r)) (ht : s.tc = s.base + 6) :
    Inv { s.put i (.done (trans r)) with tc := s.tc - 1, gt := s.gt - 1 } := by
  obtain ⟨k1, k2⟩ := h.oks i _ hi
  have hl : s.lvl = 5 := lvl_own h hi rfl
  obtain ⟨hb, hz⟩ := rest_zero h hi rfl
  refine inv_own h hi hz (p' := .done (trans r)) (l' := 5) ?_ ?_ ?_ ?_ ?_ ?_ ?_ ?_
  · rfl
  · rfl
  · rfl
  · right; exact ⟨rfl, by dsimp only; omega, by dsimp only; omega⟩
  · exact ⟨rfl, rfl, rfl⟩
  · rw [hl]
    nums 1 0 0 1 1 1 => 5 0 0 0 0 0
    · intro h1 h2
      have := (a12 h1 h2).2 (Or.inl (by omega))
      exact ⟨fun h3 => by omega, fun _ => by omega⟩
  · intro _; exact ⟨rfl, by rw [← k2]; rfl⟩
  · apply ok_mono
    · exact id
    · omega
    · omega
    · intro _ _; exact ⟨rfl, rfl⟩
    · intro _ _; left; dsimp only; omega

theorem inv_sub {s : S} (h : Inv s) {i : Nat} {p : Pc} (hi : s.pcs[i]? = some p)
    (hp : own p = 1) {n : Nat} (hn : s.base + 6 ≤ n) : Inv { s with tc := n } := by
  obtain ⟨hb, hz⟩ := rest_zero h hi hp
  have hl := lvl_own h hi hp
  have hd : isDep p = 0 ∧ isTry p = 0 := by cases p <;> first | (cases hp; done) | exact ⟨rfl, rfl⟩
  have hk := h.oks i p hi
  have hff : ∀ x : Prop, (own p = 1) → ok s.base s.lvl s.exe (fin s) s.state s.refail p →
      ok s.base s.lvl s.exe x s.state s.refail p := by
    intro x ho hh
    cases p <;> first | (cases ho; done) | exact hh
  refine inv_own h hi hz (p' := p) (l' := lv s.base p) ?_ ?_ ?_ ?_ ?_ ?_ ?_ ?_
  · exact (set_self hi).symm
  · rfl
  · rfl
  · left; exact ⟨hp, hn, rfl⟩
  · exact ⟨hd.1, hd.1, hd.2⟩
  · intro t hn'
    rw [hd.2] at hn'
    obtain ⟨a1, a2, a3, a4, a5, a6, a7, a8, a9, a10, a11, a12, a13, a14, a15, a16, a17⟩ := hn'
    rw [← hl]
    refine ⟨?_, a2, a3, a4, a5, a6, a7, a8, a9, a10, a11, a12, a13, a14, a15, a16, a17⟩
    left; exact ⟨hn, hp⟩
  · rw [← hl]; exact hff _ hp hk
  · apply ok_mono
    · exact id
    · rw [hl]; exact id
    · intro _ _ h2; rw [hl]; exact ⟨h2, id⟩
    · intro _ h2; rw [hl] at h2; exact ⟨h2, rfl⟩
    · intro _ hf
      right
      rcases hf with hf | hf
      · omega
      · have := sole exOwn_own (p' := p) hi hz
        rw [set_self hi] at this
        omega

theorem inv_depend {s : S} (h : Inv s) {i : Nat} {r : TState}
    (hi : s.pcs[i]? = some (.matched r)) (he : s.exe = false) (hr : r ≠ .failed) :
    Inv { s.put i .dependent with deps := s.deps + 1, gd := s.gd + 1, taken := s.taken + 1 } := by
  obtain ⟨k1, k2⟩ := h.oks i _ hi
  have htry : tally isTry s.pcs = 0 := by
    apply Decidable.byContradiction
    intro hne
    obtain ⟨j, q, hj, hq⟩ := tally_pos hne
    have := h.oks j q hj
    cases q <;> first
      | exact absurd rfl hq
      | (rename_i c; have := this.1; rw [he] at this; cases this)
  refine inv_free h hi (p' := .dependent) rfl rfl rfl rfl rfl rfl rfl rfl ?_ ⟨k1, k2 hr⟩
  intro d' t' hd ht
  have hn := h.num
  obtain ⟨a1, a2, a3, a4, a5, a6, a7, a8, a9, a10, a11, a12, a13, a14, a15, a16, a17⟩ := hn
  simp only [isDep, isTry] at hd ht
  refine ⟨a1, a2, a3, a4, a5, a6, a7, a8, a9, ?_, ?_, a12, ?_, ?_, a15, a16, a17⟩
  · intro h1; have := a10 h1; dsimp only; omega
  · dsimp only; omega
  · intro _ h2; omega
  · intro _; right; left; omega

theorem inv_exec {s : S} (h : Inv s) {i : Nat} (hi : s.pcs[i]? = some .dependent)
    (he : s.exe = true) (p' : Pc) (hp' : (p' = .idle ∧ s.deps - 1 ≠ 0) ∨
      (p' = .execTry true ∧ ¬ (s.last = true ∧ s.deps - 1 ≠ 0))) :
    Inv ({ s with deps := s.deps - 1, gd := s.gd - 1 }.put i p') := by
  obtain ⟨k1, k2⟩ := h.oks i _ hi
  have hge := tally_le (w := isDep) hi
  have h1 : isDep .dependent = 1 := rfl
  refine inv_free h hi (p' := p') rfl ?_ rfl rfl rfl rfl rfl rfl ?_ ?_
  · rcases hp' with ⟨rfl, _⟩ | ⟨rfl, _⟩ <;> rfl
  · intro d' t' hd ht
    have hn := h.num
    obtain ⟨a1, a2, a3, a4, a5, a6, a7, a8, a9, a10, a11, a12, a13, a14, a15, a16, a17⟩ := hn
    have hdp := a10 (by omega)
    have e0 : isDep p' = 0 := by rcases hp' with ⟨rfl, _⟩ | ⟨rfl, _⟩ <;> rfl
    rw [e0, h1] at hd
    have e1 : isTry .dependent = 0 := rfl
    refine ⟨a1, a2, a3, a4, a5, a6, a7, a8, a9, ?_, ?_, a12, ?_, ?_, a15, a16, a17⟩
    · intro _; simp only [S.put]; omega
    · simp only [S.put]; omega
    · intro hla hne
      simp only [S.put] at hla ⊢
      rcases hp' with ⟨rfl, hh⟩ | ⟨rfl, hh⟩
      · have e2 : isTry .idle = 0 := rfl
        have := a13 hla (by omega)
        omega
      · apply Decidable.byContradiction
        intro hne
        exact hh ⟨hla, hne⟩
    · intro hrf
      rcases hp' with ⟨rfl, hh⟩ | ⟨rfl, hh⟩
      · right; left; omega
      · have e2 : isTry (.execTry true) = 1 := rfl
        right; right; left; omega
  · rcases hp' with ⟨rfl, _⟩ | ⟨rfl, _⟩
    · trivial
    · exact ⟨he, k1, fun _ => k2⟩

theorem inv_bad {s : S} (h : Inv s) (hrf : s.refail = true) : Inv { s with bad := true } := by
  obtain ⟨⟨a1, a2, a3, a4, a5, a6, a7, a8, a9, a10, a11, a12, a13, a14, a15, a16, a17⟩, a18⟩ := h
  refine ⟨⟨a1, a2, a3, a4, a5, a6, a7, a8, a9, a10, a11, a12, a13, a14, a15, ?_, a17⟩, a18⟩
  intro h1; simp only [hrf] at h1; cases h1

theorem inv_phase {s : S} (h : Inv s) (x : Bool)
    (hx : ∀ q ∈ s.pcs, if x then inMatch q = false else inExec q = false) :
    Inv { s with exe := x } := by
  obtain ⟨⟨a1, a2, a3, a4, a5, a6, a7, a8, a9, a10, a11, a12, a13, a14, a15, a16, a17⟩, a18⟩ := h
  refine ⟨⟨a1, a2, a3, a4, a5, a6, a7, a8, a9, a10, a11, a12, a13, a14, a15, a16, a17⟩, ?_⟩
  intro j q hj
  have h1 := a18 j q hj
  have h2 := hx q (List.mem_of_getElem? hj)
  show ok s.base s.lvl x (fin s) s.state s.refail q
  cases x
  · simp only [Bool.false_eq_true, if_false] at h2
    cases q <;> first
      | (cases h2; done)
      | exact h1
      | exact ⟨rfl, h1.2⟩
      | exact ⟨h1.1, h1.2.1, fun _ => rfl⟩
  · simp only [if_true] at h2
    cases q <;> first
      | (cases h2; done)
      | exact h1
      | exact ⟨rfl, h1.2⟩
      | (simp only [inMatch, decide_eq_false_iff_not] at h2
         exact ⟨h1.1, h1.2.1, fun h3 => absurd h3 h2⟩)

theorem all_idle (w : Pc → Nat) (h : w .idle = 0) (l : List Pc) :
    tally w (l.map (fun _ => Pc.idle)) = 0 := by
  induction l with
  | nil => rfl
  | cons a l ih => rw [List.map_cons, tally_cons, h, ih]

theorem inv_newOp {s : S} (h : Inv s) (l : Bool) (hr : s.pcs.all resting = true)
    (hbd : s.bad = false) :
    Inv { s with on := s.on + 1, last := l, exe := false, gd := 0, gt := 0, applies := 0,
                 execs := 0, taken := 0, now := false, refail := false, phfail := false,
                 pcs := s.pcs.map (fun _ => .idle) } := by
  have hown : tally own s.pcs = 0 := by
    apply Decidable.byContradiction
    intro hne
    obtain ⟨j, q, hj, hq⟩ := tally_pos hne
    have := List.all_eq_true.1 hr q (List.mem_of_getElem? hj)
    cases q <;> first | exact hq rfl | (cases this; done)
  have ht : s.tc < s.base + 6 := by
    have := h.num.own
    omega
  have hl : S.lvl { s with on := s.on + 1, last := l, exe := false, gd := 0, gt := 0,
                           applies := 0, execs := 0, taken := 0, now := false, refail := false,
                           phfail := false, pcs := s.pcs.map (fun _ => .idle) } = 0 := by
    simp only [S.base] at ht
    unfold S.lvl
    rw [if_pos (by simp only [S.base]; omega)]
    simp only [S.base]
    omega
  constructor
  · rw [hl]
    dsimp only
    rw [all_idle _ rfl, all_idle _ rfl, all_idle _ rfl, all_idle _ rfl, all_idle _ rfl,
      all_idle _ rfl, all_idle _ rfl]
    simp only [S.base] at ht
    constructor <;> simp only [S.base] <;> (try omega) <;> intros <;> first
      | trivial
      | omega
      | exact hbd
      | exact Or.inr ⟨by omega, trivial⟩
      | exact ⟨fun h3 => by omega, fun _ => trivial⟩
  · intro j q hj
    dsimp only at hj
    rw [List.getElem?_map] at hj
    obtain ⟨w, _, rfl⟩ := Option.map_eq_some_iff.1 hj
    trivial

/-- Whoever owns an applied target in the execute phase is executing it. -/
theorem executing_now {s : S} (h : Inv s) (he : s.exe = true) (hl : 4 ≤ s.lvl)
    (ht : s.base + 6 ≤ s.tc) : tally exOwn s.pcs ≠ 0 := by
  have h1 := h.num.own
  have h2 : tally own s.pcs ≠ 0 := by omega
  obtain ⟨j, q, hj, hq⟩ := tally_pos h2
  have hk := h.oks j q hj
  have hle := tally_le (w := exOwn) hj
  have hlv : own q = 1 → s.lvl = lv s.base q := fun hq => lvl_own h hj hq
  cases q <;> first
    | exact absurd rfl hq
    | (have hle : 1 ≤ tally exOwn s.pcs := hle
       omega)
    | (have h3 := hk.1; rw [he] at h3; cases h3; done)
    | skip
  rename_i off o
  have h4 : s.lvl = off := hlv rfl
  have := hk.2.2 (by omega)
  rw [he] at this
  cases this

theorem exec_done {s : S} (h : Inv s) {i : Nat} {c : Bool} (hi : s.pcs[i]? = some (.execTry c))
    (ht : s.tc = s.base + 5) : Inv (s.put i (.done (trans s.state))) := by
  have hl : s.lvl = 5 := by unfold S.lvl; rw [if_pos (by omega), ht]; omega
  refine inv_free h hi rfl rfl rfl rfl rfl rfl rfl rfl ?_ (fun _ => ⟨hl, rfl⟩)
  intro d' t' hd ht'
  have hdd : d' = tally isDep s.pcs := hd
  have htt : isTry (.done (trans s.state)) = 0 := rfl
  obtain ⟨a1, a2, a3, a4, a5, a6, a7, a8, a9, a10, a11, a12, a13, a14, a15, a16, a17⟩ := h.num
  rw [hdd]
  refine ⟨a1, a2, a3, a4, a5, a6, a7, a8, a9, a10, a11, a12, ?_, ?_, a15, a16, a17⟩
  · intro h1 h2; exact a13 h1 (by omega)
  · intro _; omega

theorem exec_wait {s : S} (h : Inv s) {i : Nat} {c : Bool} (hi : s.pcs[i]? = some (.execTry c))
    (ht : s.base + 6 ≤ s.tc) : Inv (s.put i .execWait) := by
  obtain ⟨k1, k2, k3⟩ := h.oks i _ hi
  have hx := executing_now h k1 k2 ht
  refine inv_free h hi rfl rfl rfl rfl rfl rfl rfl rfl ?_ ⟨k1, Or.inr hx⟩
  intro d' t' hd ht'
  have hdd : d' = tally isDep s.pcs := hd
  have htt : isTry .execWait = 0 := rfl
  obtain ⟨a1, a2, a3, a4, a5, a6, a7, a8, a9, a10, a11, a12, a13, a14, a15, a16, a17⟩ := h.num
  rw [hdd]
  refine ⟨a1, a2, a3, a4, a5, a6, a7, a8, a9, a10, a11, a12, ?_, ?_, a15, a16, a17⟩
  · intro h1 h2; exact a13 h1 (by omega)
  · intro _; omega

theorem waited_done {s : S} (h : Inv s) {i : Nat} (hi : s.pcs[i]? = some .execWait)
    (ht : s.tc ≤ s.base + 5) : Inv (s.put i (.done (trans s.state))) := by
  obtain ⟨k1, k2⟩ := h.oks i _ hi
  have ht5 : s.tc = s.base + 5 := by
    rcases k2 with k2 | k2
    · exact k2
    · exfalso
      have h1 := h.num.own
      have h2 : tally own s.pcs = 0 := by omega
      exact k2 (tally_zero exOwn_own h2)
  have hl : s.lvl = 5 := by unfold S.lvl; rw [if_pos (by omega), ht5]; omega
  exact inv_move h hi rfl rfl rfl rfl (fun _ => ⟨hl, rfl⟩)

theorem inv_act {s t : S} {i : Nat} {op : Op} (h : Inv s) (hbd : s.bad = false)
    (e : act s i op = some t) : Inv t := by
  unfold act at e
  cases op with
  | toExecute =>
    dsimp only at e
    split at e
    · rename_i hc
      cases e
      refine inv_phase h true ?_
      intro q hq
      have := List.all_eq_true.1 hc.2 q hq
      simpa using this
    · cases e
  | toMatch =>
    dsimp only at e
    split at e
    · rename_i hc
      cases e
      refine inv_phase h false ?_
      intro q hq
      have := List.all_eq_true.1 hc.2 q hq
      simpa using this
    · cases e
  | newOp l =>
    dsimp only at e
    split at e
    · rename_i hc
      cases e
      exact inv_newOp h l hc hbd
    · cases e
  | lock o w =>
    dsimp only at e
    split at e
    · cases e
    rename_i p hi
    cases p <;> first | (cases e; done) | skip
    dsimp only at e
    split at e
    · cases e
    · rename_i he
      cases e
      exact inv_move h hi rfl rfl rfl rfl ⟨by simpa using he, by omega, fun h1 => by omega⟩
  | cas =>
    dsimp only at e
    split at e
    · cases e
    rename_i p hi
    cases p <;> first | (cases e; done) | skip
    rename_i ex o w
    have hk := h.oks i _ hi
    dsimp only at e
    split at e
    · rename_i ht
      cases e
      exact inv_casWin h hi ht
    · split at e
      · cases e
        cases w
        · exact inv_move h hi rfl rfl rfl rfl trivial
        · exact inv_move h hi rfl rfl rfl rfl trivial
      · cases e
        have hl : s.lvl = s.tc - s.base := by unfold S.lvl; rw [if_pos (by omega)]
        exact inv_move h hi rfl rfl rfl rfl ⟨hk.1, by omega, fun _ => by omega⟩
  | wake =>
    dsimp only at e
    split at e
    · cases e
    rename_i p hi
    cases p <;> first | (cases e; done) | skip
    dsimp only at e
    split at e
    · cases e
      have hl : s.lvl = s.tc - s.base := by unfold S.lvl; rw [if_pos (by omega)]
      exact inv_move h hi rfl rfl rfl rfl ⟨by omega, fun _ => by omega⟩
    · cases e
  | relock =>
    dsimp only at e
    split at e
    · cases e
    rename_i p hi
    cases p <;> first | (cases e; done) | skip
    have hk := h.oks i _ hi
    dsimp only at e
    split at e
    · cases e
    · rename_i he
      cases e
      exact inv_move h hi rfl rfl rfl rfl ⟨by simpa using he, hk⟩
  | check =>
    dsimp only at e
    split at e
    · cases e
    rename_i p hi
    cases p <;> first | (cases e; done) | skip
    have hk := h.oks i _ hi
    dsimp only at e
    split at e
    · rename_i hc
      cases e
      exact inv_move h hi rfl rfl rfl rfl ⟨hk.1, hk.2.2 hc.1⟩
    · cases e
      exact inv_move h hi rfl rfl rfl rfl hk
  | got =>
    dsimp only at e
    split at e
    · cases e
    rename_i p hi
    cases p <;> first | (cases e; done) | skip
    dsimp only at e
    split at e
    · rename_i hc
      cases e
      exact inv_gotFirst h hi hc
    · rename_i hc
      split at e
      · rename_i hc2
        cases e
        exact inv_gotSkip h hi hc2.1
      · cases e
        exact inv_gotLock h hi hc
  | matchNone =>
    dsimp only at e
    split at e
    · cases e
    rename_i p hi
    cases p <;> first | (cases e; done) | skip
    dsimp only at e
    split at e
    · rename_i hc
      cases e
      exact inv_matchTo h hi hc.1 hc.2.2 (Or.inl rfl)
    · cases e
  | matchOk =>
    dsimp only at e
    split at e
    · cases e
    rename_i p hi
    cases p <;> first | (cases e; done) | skip
    dsimp only at e
    split at e
    · rename_i hc
      cases e
      exact inv_matchTo h hi hc.1 hc.2.2 (Or.inr rfl)
    · cases e
  | ruleFail =>
    dsimp only at e
    split at e
    · cases e
    rename_i p hi
    cases p <;> first | (cases e; done) | skip
    dsimp only at e
    split at e
    · rename_i hc
      cases e
      exact inv_ruleFail h hi hc.1
    · cases e
  | apply c np ph =>
    dsimp only at e
    split at e
    · cases e
    rename_i p hi
    cases p <;> first | (cases e; done) | skip
    dsimp only at e
    split at e
    · rename_i hc
      cases e
      obtain ⟨h1, _, rfl, h3⟩ := hc
      exact inv_apply h hi h1 h3
    · cases e
  | setRecipe =>
    dsimp only at e
    split at e
    · cases e
    rename_i p hi
    cases p <;> first | (cases e; done) | skip
    rename_i c np ph
    dsimp only at e
    split at e
    · rename_i hc
      cases e
      exact inv_setRecipe h hi
    · cases e
  | reapply c =>
    dsimp only at e
    split at e
    · cases e
    rename_i p hi
    cases p <;> first | (cases e; done) | skip
    dsimp only at e
    split at e
    · rename_i hc
      cases e
      obtain ⟨h1, _, rfl, h3, _⟩ := hc
      exact inv_reapply h hi h1 h3
    · cases e
  | unlock =>
    dsimp only at e
    split at e
    · cases e
    rename_i p hi
    cases p <;> first | (cases e; done) | skip
    dsimp only at e
    split at e
    · rename_i hc
      cases e
      exact inv_unlock h hi hc.1
    · cases e
  | query =>
    dsimp only at e
    split at e
    · cases e
    rename_i p hi
    cases p <;> first | (cases e; done) | skip
    obtain ⟨k1, k2⟩ := h.oks i _ hi
    have hlt : s.tc < s.base + 6 → s.lvl = s.tc - s.base := by
      intro hh; unfold S.lvl; rw [if_pos (by omega)]
    dsimp only at e
    split at e
    · cases e
      exact inv_move h hi rfl rfl rfl rfl trivial
    · split at e
      · cases e
        exact inv_move h hi rfl rfl rfl rfl ⟨k2, fun h1 _ _ => h1⟩
      · rename_i hc
        exfalso
        apply hc
        have := h.num.cu4 (Or.inl k2)
        by_cases hh : s.tc < s.base + 6
        · have := hlt hh; omega
        · right; right; exact ⟨by omega, this⟩
  | depend =>
    dsimp only at e
    split at e
    · cases e
    rename_i p hi
    cases p <;> first | (cases e; done) | skip
    dsimp only at e
    split at e
    · rename_i hc
      cases e
      exact inv_depend h hi hc.1 hc.2
    · cases e
  | direct =>
    dsimp only at e
    split at e
    · cases e
    rename_i p hi
    cases p <;> first | (cases e; done) | skip
    have hk := h.oks i _ hi
    cases e
    exact inv_move h hi rfl rfl rfl rfl hk.1
  | leave =>
    dsimp only at e
    split at e
    · cases e
    rename_i p hi
    cases p <;> first | (cases e; done) | skip
    all_goals
      cases e
      exact inv_move h hi rfl rfl rfl rfl trivial
  | exec =>
    dsimp only at e
    split at e
    · cases e
    rename_i p hi
    cases p <;> first | (cases e; done) | skip
    · have hk := h.oks i _ hi
      have hge := tally_le (w := isDep) hi
      have h1 : isDep .dependent = 1 := rfl
      have hd := h.num.dp (by have := hk.1; omega)
      have hg := h.num.gd
      dsimp only at e
      split at e
      · cases e
      · rename_i he
        split at e
        · exfalso; omega
        · split at e
          · rename_i hc
            cases e
            exact inv_exec h hi (by simpa using he) _ (Or.inl ⟨rfl, hc.2⟩)
          · rename_i hc
            cases e
            exact inv_exec h hi (by simpa using he) _ (Or.inr ⟨rfl, hc⟩)
    · have hk := h.oks i _ hi
      dsimp only at e
      split at e
      · rename_i he
        cases e
        exact inv_move h hi rfl rfl rfl rfl ⟨he, hk, fun h1 => by cases h1⟩
      · cases e
  | execCas =>
    dsimp only at e
    split at e
    · cases e
    rename_i p hi
    cases p <;> first | (cases e; done) | skip
    rename_i c
    obtain ⟨k1, k2, k3⟩ := h.oks i _ hi
    dsimp only at e
    split at e
    · rename_i ht
      have hl : s.lvl = 4 := by unfold S.lvl; rw [if_pos (by omega), ht]; omega
      split at e
      · rename_i hst
        cases e
        exact inv_execNoop h hi ht (Or.inl hst)
      · rename_i hst
        split at e
        · rename_i hst2
          cases e
          exact inv_execRun h hi ht hst2
        · rename_i hst2
          split at e
          · rename_i hst3
            cases e
            exact inv_execNoop h hi ht (Or.inr hst3.2)
          · rename_i hst3
            cases e
            apply inv_bad h
            cases hrf : s.refail with
            | true => rfl
            | false =>
              exfalso
              rcases h.num.st4 hrf hl with h1 | h1 | h1
              · exact hst2 h1
              · exact hst h1
              · cases c
                · exact hst3 ⟨rfl, h1⟩
                · exact k3 rfl hrf hl h1
    · rename_i ht
      split at e
      · rename_i hb
        cases e
        exact exec_wait h hi hb
      · rename_i hb
        split at e
        · rename_i h5
          cases e
          exact exec_done h hi h5
        · exfalso
          have : s.lvl = s.tc - s.base := by unfold S.lvl; rw [if_pos (by omega)]
          omega
  | finishNoop r =>
    dsimp only at e
    split at e
    · cases e
    rename_i p hi
    cases p <;> first | (cases e; done) | skip
    dsimp only at e
    split at e
    · rename_i hc
      obtain ⟨_, rfl⟩ := hc
      cases e
      exact inv_finishNoop h hi
    · split at e
      · rename_i hc
        cases e
        exact inv_finishDir h hi hc.2.2.1 r
      · cases e
  | finish r =>
    dsimp only at e
    split at e
    · cases e
    rename_i p hi
    cases p <;> first | (cases e; done) | skip
    dsimp only at e
    split at e
    · cases e
      exact inv_finish h hi r
    · cases e
  | publish =>
    dsimp only at e
    split at e
    · cases e
    rename_i p hi
    cases p <;> first | (cases e; done) | skip
    dsimp only at e
    split at e
    · rename_i hc
      cases e
      exact inv_publish h hi hc
    · cases e
  | waited =>
    dsimp only at e
    split at e
    · cases e
    rename_i p hi
    cases p <;> first | (cases e; done) | skip
    dsimp only at e
    split at e
    · rename_i hc
      cases e
      exact waited_done h hi hc
    · cases e
  | join =>
    dsimp only at e
    split at e
    · cases e
    rename_i p hi
    cases p <;> first | (cases e; done) | skip
    dsimp only at e
    split at e
    · rename_i hc
      cases e
      exact inv_move h hi rfl rfl rfl rfl hc
    · cases e
  | subStart =>
    dsimp only at e
    split at e
    · cases e
    rename_i p hi
    cases p <;> first | (cases e; done) | skip
    all_goals
      cases e
      have := (rest_zero h hi rfl).1
      exact inv_sub h hi rfl (by omega)
  | subEnd =>
    dsimp only at e
    split at e
    · cases e
    rename_i p hi
    cases p <;> first | (cases e; done) | skip
    all_goals
      dsimp only at e
      split at e
      · cases e
        exact inv_sub h hi rfl (by omega)
      · cases e

theorem inv_reach {N : Nat} {s : S} (h : Reach N s) : Inv s := by
  induction h with
  | init dir last =>
    have hz : ∀ w : Pc → Nat, w .idle = 0 → tally w (List.replicate N Pc.idle) = 0 := by
      intro w hw
      rw [tally_replicate, hw, Nat.mul_zero]
    constructor
    · dsimp only
      rw [hz _ rfl, hz _ rfl, hz _ rfl, hz _ rfl, hz _ rfl, hz _ rfl, hz _ rfl]
      have hl : S.lvl { dir := dir, last := last, pcs := List.replicate N .idle } = 0 := rfl
      rw [hl]
      constructor <;> simp only [S.base] <;> (try omega) <;> intros <;> first
        | trivial
        | omega
        | exact ⟨fun h3 => by omega, fun _ => trivial⟩
    · intro j q hj
      dsimp only at hj
      rw [List.getElem?_replicate] at hj
      split at hj
      · cases hj; trivial
      · cases hj
  | step hr e ih =>
    unfold step at e
    split at e
    · cases e
    · rename_i hb
      exact inv_act ih (by simpa using hb) e

end Verif.OpState
