import Verif.OutOfDate.Model
import Verif.TargetState.Props

/-! C24: when a target is rebuilt, and what the order of the prerequisites has to do with it
(nothing). -/

namespace Verif.OutOfDate

open Verif.TargetState

/-! ## Setting -/

/-- The prerequisites that are there (not skipped), in order. -/
def pres (ps : List (Option Slot)) : List Pre := ps.filterMap (fun o => o.map Slot.pre)

/-- What `execute_async` returned is consistent with what happened to the prerequisite: it returns
`postponed` exactly for the postponed ones, and `failed` only for those that failed. The others
are in a final state when `execute_complete` returns. -/
def Slot.Ok (p : Slot) : Prop :=
  (p.async = .postponed ↔ p.pre.postponed = true) ∧ (p.async = .failed → p.pre.state = .failed) ∧
  (p.pre.postponed = false → Finished p.pre)

def Ok (ps : List (Option Slot)) : Prop := ∀ p, some p ∈ ps → p.Ok

/-- A prerequisite that was executed has failed. -/
def SomeFailed (ps : List Pre) : Prop := ∃ p ∈ ps, p.postponed = false ∧ p.state = .failed

/-- The prerequisite the caller gets if it asks for a certain type: not ad hoc, not postponed and
of this type. -/
def wanted (p : Pre) : Bool := !p.postponed && !p.adhoc && p.typed

/-! ## The loops -/

def keep (p : Pre) : Bool := !p.postponed

def blankPostponed : Option Slot → Option Slot
  | some p => if p.async = .postponed then none else some p
  | none => none

def blankAdhoc : Option Slot → Option Slot
  | some p => if p.pre.adhoc then none else some p
  | none => none

def postponedStates (ps : List (Option Slot)) : List TState :=
  ps.filterMap fun o => match o with
    | some p => if p.async = .postponed then some .postponed else none
    | none => none

theorem startAll_some (kg : Bool) (ps : List (Option Slot)) (rs : TState)
    (h : ∀ p, some p ∈ ps → p.async ≠ .failed ∨ kg = true) :
    startAll kg rs ps = some ((postponedStates ps).foldl merge rs, ps.map blankPostponed) := by
  induction ps generalizing rs with
  | nil => rfl
  | cons o ps ih =>
    have ih := fun rs => ih rs (fun p hp => h p (List.mem_cons_of_mem _ hp))
    cases o with
    | none => simp [startAll, start, ih, postponedStates, blankPostponed]
    | some p =>
      have hp := h p (by simp)
      have hn : ¬(p.async = .failed ∧ kg = false) := by
        intro hc; rcases hp with hp | hp
        · exact hp hc.1
        · rw [hp] at hc; exact absurd hc.2 (by decide)
      by_cases hs : p.async = .postponed
      · simp [startAll, start, ih, postponedStates, blankPostponed, hs]
      · simp [startAll, start, hn, ih, postponedStates, blankPostponed, hs]

theorem startAll_none (kg : Bool) (ps : List (Option Slot)) (rs : TState)
    (h : startAll kg rs ps = none) : ∃ p, some p ∈ ps ∧ p.async = .failed := by
  induction ps generalizing rs with
  | nil => cases h
  | cons o ps ih =>
    cases o with
    | none =>
      simp only [startAll, start] at h
      split at h
      · rename_i h'
        obtain ⟨p, hp, he⟩ := ih _ h'
        exact ⟨p, List.mem_cons_of_mem _ hp, he⟩
      · cases h
    | some p =>
      by_cases hf : p.async = .failed
      · exact ⟨p, by simp, hf⟩
      · simp only [startAll, start] at h
        rw [if_neg (fun hc => hf hc.1)] at h
        split at h
        · rename_i h'; split at h' <;> cases h'
        · split at h
          · rename_i h'
            obtain ⟨q, hq, he⟩ := ih _ h'
            exact ⟨q, List.mem_cons_of_mem _ hq, he⟩
          · cases h

/-- Executable form of the comparison. -/
def stale (mt : Int) (p : Pre) : Bool :=
  (p.adhoc || p.filter) &&
  match p.mtime with
  | some m => decide (mt < m) || (decide (mt = m) && decide (p.state = .changed))
  | none => decide (p.state = .changed)

def typedIds (ps : List (Option Slot)) : List Nat :=
  ((pres ps).filter (fun p => !p.adhoc && p.typed)).map Pre.id

theorem compare_ok (mt : Int) (a : Acc) (p : Pre) (hf : Finished p) (hn : p.state ≠ .failed) :
    compare mt a p = .ok { rs := merge a.rs p.state, e := a.e || stale mt p, rt := a.rt } := by
  have hu : p.state ≠ .unknown := by
    rcases hf with h | h | h <;> rw [h] <;> decide
  unfold compare stale
  rw [if_neg hn]
  by_cases hc : (!a.e && (p.adhoc || p.filter)) = true
  · simp only [hc, if_true]
    have he : a.e = false := by cases h : a.e <;> simp_all
    have hx : (p.adhoc || p.filter) = true := by cases h : a.e <;> simp_all
    cases hm : p.mtime with
    | none => simp [he, hx]
    | some m => simp [newer, hu, he, hx]
  · simp only [hc]
    cases he : a.e with
    | true => simp
    | false =>
      have hx : (p.adhoc || p.filter) = false := by
        cases h : (p.adhoc || p.filter) <;> simp_all
      simp [hx]

theorem compare_failed (mt : Int) (a : Acc) (p : Pre) (hn : p.state = .failed) :
    compare mt a p = .error .failed := by
  unfold compare; rw [if_pos hn]

def rtAfter (last tt : Bool) (rt : Option Nat) (ids : List Nat) : Option Nat :=
  if tt then (if last then ids.getLast?.or rt else rt.or ids.head?) else rt

theorem rtAfter_nil (last tt : Bool) (rt : Option Nat) : rtAfter last tt rt [] = rt := by
  unfold rtAfter; cases last <;> cases tt <;> simp

theorem completeAll_ok (last tt : Bool) (mt : Int) (ps : List (Option Slot)) (a : Acc)
    (hf : ∀ p, some p ∈ ps → Finished p.pre ∧ p.pre.state ≠ .failed) :
    completeAll last tt mt a ps =
      .ok ({ rs := ((pres ps).map Pre.state).foldl merge a.rs,
             e := a.e || (pres ps).any (stale mt),
             rt := rtAfter last tt a.rt (typedIds ps) }, ps.map blankAdhoc) := by
  induction ps generalizing a with
  | nil => simp [completeAll, pres, typedIds, rtAfter_nil]
  | cons o ps ih =>
    have ih := fun a => ih a (fun p hp => hf p (List.mem_cons_of_mem _ hp))
    cases o with
    | none =>
      have h1 : pres (none :: ps) = pres ps := rfl
      have h2 : typedIds (none :: ps) = typedIds ps := rfl
      simp only [completeAll, complete, ih, h1, h2]
      rfl
    | some p =>
      obtain ⟨h1, h2⟩ := hf p (by simp)
      have h3 : pres (some p :: ps) = p.pre :: pres ps := rfl
      have hcmp := compare_ok mt a p.pre h1 h2
      have hids : typedIds (some p :: ps) =
          (if !p.pre.adhoc && p.pre.typed then [p.pre.id] else []) ++ typedIds ps := by
        simp only [typedIds, h3, List.filter_cons]
        split <;> rfl
      by_cases had : p.pre.adhoc = true
      · simp only [completeAll, complete, hcmp, had, if_true, ih, h3, hids]
        simp [had, blankAdhoc, Bool.or_assoc]
      · have had' : p.pre.adhoc = false := by simpa using had
        cases tt with
        | false =>
          simp only [completeAll, complete, hcmp, had', h3, hids]
          simp [ih, had', blankAdhoc, Bool.or_assoc, rtAfter]
        | true =>
          cases hty : p.pre.typed with
          | false =>
            simp only [completeAll, complete, hcmp, had', h3, hids, hty]
            simp [ih, had', blankAdhoc, Bool.or_assoc, rtAfter]
          | true =>
            simp only [completeAll, complete, hcmp, had', h3, hids, hty]
            cases last with
            | true =>
              simp [ih, had', blankAdhoc, Bool.or_assoc, rtAfter]
              cases hl : typedIds ps with
              | nil => simp
              | cons x xs => simp [List.getLast?_cons]
            | false =>
              cases hr : a.rt with
              | none => simp [ih, had', blankAdhoc, Bool.or_assoc, rtAfter]
              | some r => simp [ih, had', blankAdhoc, Bool.or_assoc, rtAfter]

theorem completeAll_failed (last tt : Bool) (mt : Int) (ps : List (Option Slot)) (a : Acc)
    (hf : ∀ p, some p ∈ ps → Finished p.pre)
    (h : ∃ p, some p ∈ ps ∧ p.pre.state = .failed) :
    completeAll last tt mt a ps = .error .failed := by
  induction ps generalizing a with
  | nil => obtain ⟨p, hp, -⟩ := h; cases hp
  | cons o ps ih =>
    have ih := fun a => ih a (fun p hp => hf p (List.mem_cons_of_mem _ hp))
    cases o with
    | none =>
      obtain ⟨p, hp, he⟩ := h
      have hp : some p ∈ ps := by simpa using hp
      simp [completeAll, complete, ih _ ⟨p, hp, he⟩]
    | some q =>
      by_cases hq : q.pre.state = .failed
      · simp [completeAll, complete, compare_failed mt a q.pre hq]
      · obtain ⟨p, hp, he⟩ := h
        have hp : some p ∈ ps := by
          rcases List.mem_cons.1 hp with hp | hp
          · cases hp; exact absurd he hq
          · exact hp
        have hcmp := compare_ok mt a q.pre (hf q (by simp)) hq
        have ih := fun a => ih a ⟨p, hp, he⟩
        simp only [completeAll, complete, hcmp]
        split
        · rename_i heq
          split at heq
          · cases heq
          · split at heq
            · split at heq <;> cases heq
            · cases heq
        · rw [ih]

/-! ## The functions -/

def executed (ps : List (Option Slot)) : List Pre := (pres ps).filter (fun p => !p.postponed)

theorem pres_blank (ps : List (Option Slot)) (h : Ok ps) :
    pres (ps.map blankPostponed) = executed ps := by
  induction ps with
  | nil => rfl
  | cons o ps ih =>
    have ih := ih (fun p hp => h p (List.mem_cons_of_mem _ hp))
    cases o with
    | none => simpa [pres, executed, blankPostponed] using ih
    | some p =>
      have hp := (h p (by simp)).1
      by_cases hs : p.async = .postponed
      · have := hp.1 hs
        simp [pres, executed, blankPostponed, hs, this] at ih ⊢
        exact ih
      · have : p.pre.postponed = false := by
          cases hq : p.pre.postponed
          · rfl
          · exact absurd (hp.2 hq) hs
        simp [pres, executed, blankPostponed, hs, this] at ih ⊢
        exact ih

theorem mem_pres (ps : List (Option Slot)) (p : Pre) :
    p ∈ pres ps ↔ ∃ s, some s ∈ ps ∧ s.pre = p := by
  unfold pres
  rw [List.mem_filterMap]
  constructor
  · rintro ⟨o, ho, h⟩
    cases o with
    | none => cases h
    | some s => exact ⟨s, ho, by simpa using h⟩
  · rintro ⟨s, hs, rfl⟩
    exact ⟨some s, hs, rfl⟩

theorem mem_blank (ps : List (Option Slot)) (h : Ok ps) (s : Slot) :
    some s ∈ ps.map blankPostponed ↔ some s ∈ ps ∧ s.pre.postponed = false := by
  rw [List.mem_map]
  constructor
  · rintro ⟨o, ho, he⟩
    cases o with
    | none => cases he
    | some q =>
      simp only [blankPostponed] at he
      split at he
      · cases he
      · rename_i hs
        cases he
        refine ⟨ho, ?_⟩
        cases hq : s.pre.postponed
        · rfl
        · exact absurd ((h s ho).1.2 hq) hs
  · rintro ⟨ho, hq⟩
    refine ⟨some s, ho, ?_⟩
    have : s.async ≠ .postponed := by
      intro hs; have := (h s ho).1.1 hs; rw [hq] at this; cases this
    simp [blankPostponed, this]

/-- What is in `prerequisite_targets` after a successful call. -/
def left (ps : List (Option Slot)) : List (Option Slot) :=
  ps.map fun o => blankAdhoc (blankPostponed o)

def allStates (ps : List (Option Slot)) : List TState :=
  postponedStates ps ++ (executed ps).map Pre.state

theorem both_failed (last tt kg : Bool) (mt : Int) (ps : List (Option Slot)) (h : Ok ps)
    (hf : SomeFailed (pres ps)) : both last tt kg mt ps = (.failed, ps) := by
  unfold both
  cases hs : startAll kg .unchanged ps with
  | none => rfl
  | some r =>
    obtain ⟨p, hp, h1, h2⟩ := hf
    obtain ⟨s, hs', rfl⟩ := (mem_pres _ _).1 hp
    have hcond : ∀ p, some p ∈ ps → p.async ≠ .failed ∨ kg = true := by
      -- otherwise the first loop throws
      intro q hq
      cases kg with
      | true => exact Or.inr rfl
      | false =>
        refine Or.inl ?_
        intro hqf
        have aux : ∀ (l : List (Option Slot)) (rs : TState), some q ∈ l →
            startAll false rs l = none := by
          intro l
          induction l with
          | nil => intro _ hl; cases hl
          | cons o l ih =>
            intro rs hl
            rcases List.mem_cons.1 hl with hl | hl
            · cases hl; simp [startAll, start, hqf]
            · simp only [startAll]
              split
              · rfl
              · rw [ih _ hl]
        rw [aux ps _ hq] at hs; cases hs
    rw [startAll_some kg ps _ hcond] at hs
    cases hs
    simp only
    rw [completeAll_failed]
    · intro p hp
      obtain ⟨h1, h2⟩ := (mem_blank ps h p).1 hp
      exact (h p h1).2.2 h2
    · exact ⟨s, (mem_blank ps h s).2 ⟨hs', h1⟩, h2⟩

theorem both_ok (last tt kg : Bool) (mt : Int) (ps : List (Option Slot)) (h : Ok ps)
    (hf : ¬ SomeFailed (pres ps)) :
    both last tt kg mt ps =
      (let rt := rtAfter last tt none (((pres ps).filter wanted).map Pre.id)
       if tt ∧ rt = none then .assertFailed
       else .ok (if decide (mt = nonexistent) || (executed ps).any (stale mt) then none
                 else some (mergeAll (allStates ps))) rt, left ps) := by
  have hnf : ∀ p, some p ∈ ps → p.async ≠ .failed := by
    intro p hp hc
    have hst := (h p hp).2.1 hc
    refine hf ⟨p.pre, (mem_pres _ _).2 ⟨p, hp, rfl⟩, ?_, hst⟩
    cases hq : p.pre.postponed
    · rfl
    · have := (h p hp).1.2 hq; rw [hc] at this; cases this
  unfold both
  rw [startAll_some kg ps _ (fun p hp => Or.inl (hnf p hp))]
  simp only
  rw [completeAll_ok]
  · have hids : typedIds (ps.map blankPostponed) = ((pres ps).filter wanted).map Pre.id := by
      unfold typedIds
      rw [pres_blank ps h, executed, List.filter_filter]
      congr 1
      apply List.filter_congr
      intro p _
      unfold wanted
      cases p.postponed <;> cases p.adhoc <;> cases p.typed <;> rfl
    simp only [hids, pres_blank ps h]
    have hst : List.foldl merge (List.foldl merge TState.unchanged (postponedStates ps))
        (List.map Pre.state (executed ps)) = mergeAll (allStates ps) := by
      unfold mergeAll allStates
      rw [List.foldl_append]
    rw [hst]
    have hl : List.map blankAdhoc (List.map blankPostponed ps) = left ps := by
      simp [left, List.map_map, Function.comp_def]
    rw [hl]
    split <;> rfl
  · intro p hp
    obtain ⟨h1, h2⟩ := (mem_blank ps h p).1 hp
    refine ⟨(h p h1).2.2 h2, fun hc => hf ⟨p.pre, (mem_pres _ _).2 ⟨p, h1, rfl⟩, h2, hc⟩⟩

theorem stale_iff (mt : Int) (ps : List (Option Slot)) :
    (decide (mt = nonexistent) || (executed ps).any (stale mt)) = true ↔
      MustRebuild mt (pres ps) := by
  simp only [Bool.or_eq_true, decide_eq_true_eq, List.any_eq_true, MustRebuild]
  refine or_congr Iff.rfl ?_
  constructor
  · rintro ⟨p, hp, hs⟩
    simp only [executed, List.mem_filter] at hp
    simp only [stale, Bool.and_eq_true, Bool.or_eq_true] at hs
    refine ⟨p, hp.1, ⟨by simpa using hp.2, hs.1⟩, ?_⟩
    cases hm : p.mtime with
    | none => rw [hm] at hs; exact Or.inr ⟨hm, by simpa using hs.2⟩
    | some m => rw [hm] at hs; exact Or.inl ⟨m, hm, by simpa using hs.2⟩
  · rintro ⟨p, hp, ⟨h1, h2⟩, hs⟩
    refine ⟨p, by simp [executed, hp, h1], ?_⟩
    simp only [stale, Bool.and_eq_true, Bool.or_eq_true]
    refine ⟨h2, ?_⟩
    rcases hs with ⟨m, hm, hs⟩ | ⟨hm, hs⟩
    · rw [hm]; simpa using hs
    · rw [hm]; simpa using hs

theorem rtAfter_reverse (tt : Bool) (ids : List Nat) :
    rtAfter true tt none ids.reverse = rtAfter false tt none ids := by
  unfold rtAfter; cases tt <;> simp

theorem pres_reverse (ps : List (Option Slot)) : pres ps.reverse = (pres ps).reverse := by
  simp [pres, List.filterMap_reverse]

theorem ok_reverse {ps : List (Option Slot)} (h : Ok ps) : Ok ps.reverse :=
  fun p hp => h p (List.mem_reverse.1 hp)

theorem someFailed_perm {ps qs : List Pre} (h : ps.Perm qs) : SomeFailed ps ↔ SomeFailed qs := by
  unfold SomeFailed
  constructor <;> rintro ⟨p, hp, hq⟩
  · exact ⟨p, h.mem_iff.1 hp, hq⟩
  · exact ⟨p, h.mem_iff.2 hp, hq⟩

theorem allStates_perm {ps qs : List (Option Slot)} (h : ps.Perm qs) :
    (allStates ps).Perm (allStates qs) :=
  (h.filterMap _).append (((h.filterMap _).filter _).map _)

theorem mustRebuild_perm {mt : Int} {ps qs : List Pre} (h : ps.Perm qs) :
    MustRebuild mt ps ↔ MustRebuild mt qs := by
  unfold MustRebuild
  refine or_congr Iff.rfl ?_
  constructor <;> rintro ⟨p, hp, hq⟩
  · exact ⟨p, h.mem_iff.1 hp, hq⟩
  · exact ⟨p, h.mem_iff.2 hp, hq⟩

theorem postponedStates_mem (ps : List (Option Slot)) (h : Ok ps) (s : TState) :
    s ∈ postponedStates ps ↔ s = .postponed ∧ ∃ p ∈ pres ps, p.postponed = true := by
  unfold postponedStates
  rw [List.mem_filterMap]
  constructor
  · rintro ⟨o, ho, he⟩
    cases o with
    | none => cases he
    | some q =>
      simp only at he
      split at he
      · rename_i hs
        cases he
        exact ⟨rfl, q.pre, (mem_pres _ _).2 ⟨q, ho, rfl⟩, (h q ho).1.1 hs⟩
      · cases he
  · rintro ⟨rfl, p, hp, hq⟩
    obtain ⟨q, hq', rfl⟩ := (mem_pres _ _).1 hp
    exact ⟨some q, hq', by simp [(h q hq').1.2 hq]⟩

/-! ## The property

`A` are the slots the call is about: `range n ps`. -/

variable (tt kg : Bool) (mt : Int) (n : Nat) (ps : List (Option Slot))

theorem range_ok {n : Nat} {ps : List (Option Slot)} (h : Ok ps) : Ok (range n ps) := by
  unfold range
  split
  · exact h
  · exact fun p hp => h p (List.mem_of_mem_take hp)

/-- The call throws exactly if one of the prerequisites failed, whatever --keep-going and the order
in which they fail. -/
theorem fails_iff (h : Ok ps) :
    (executePrerequisites tt kg mt n ps).1 = .failed ↔ SomeFailed (pres (range n ps)) := by
  have h' := range_ok (n := n) h
  unfold executePrerequisites
  by_cases hf : SomeFailed (pres (range n ps))
  · simp [both_failed false tt kg mt _ h' hf, hf]
  · rw [both_ok false tt kg mt _ h' hf]
    simp only [hf, iff_false]
    split <;> simp

/-- If no prerequisite failed, then the target is to be rebuilt (no state is returned) exactly if it
does not exist or a prerequisite that counts is newer. -/
theorem rebuild_iff (h : Ok ps) (hf : ¬ SomeFailed (pres (range n ps))) (r : Option TState)
    (i : Option Nat) (he : (executePrerequisites tt kg mt n ps).1 = .ok r i) :
    r = none ↔ MustRebuild mt (pres (range n ps)) := by
  have h' := range_ok (n := n) h
  unfold executePrerequisites at he
  rw [both_ok false tt kg mt _ h' hf] at he
  simp only at he
  split at he
  · cases he
  · injection he with h1 h2
    rw [← stale_iff]
    subst h1
    split <;> simp_all

/-- If the target is left alone, then the state returned is `changed` if a prerequisite was changed
in this run, else `postponed` if one was postponed, else `unchanged`. -/
theorem left_alone_state (h : Ok ps) (hf : ¬ SomeFailed (pres (range n ps))) (s : TState)
    (i : Option Nat) (he : (executePrerequisites tt kg mt n ps).1 = .ok (some s) i) :
    let A := pres (range n ps)
    (s = .changed ↔ ∃ p ∈ A, p.postponed = false ∧ p.state = .changed) ∧
    (s = .postponed ↔ (∃ p ∈ A, p.postponed = true) ∧
      ¬ ∃ p ∈ A, p.postponed = false ∧ p.state = .changed) ∧
    (s = .changed ∨ s = .postponed ∨ s = .unchanged) := by
  have h' := range_ok (n := n) h
  unfold executePrerequisites at he
  rw [both_ok false tt kg mt _ h' hf] at he
  simp only at he
  split at he
  · cases he
  · injection he with h1 h2
    split at h1
    · cases h1
    · injection h1 with h1
      generalize hq : range n ps = qs at *
      have hmem := foldl_merge_mem (allStates qs) .unchanged
      have hge := fun x hx => foldl_merge_mem_ge (allStates qs) .unchanged x hx
      have hge0 := foldl_merge_ge (allStates qs) .unchanged
      rw [show (allStates qs).foldl merge .unchanged = s from h1] at hmem hge hge0
      have hall : ∀ x ∈ allStates qs, x = .postponed ∧ (∃ p ∈ pres qs, p.postponed = true) ∨
          x = .changed ∧ (∃ p ∈ pres qs, p.postponed = false ∧ p.state = .changed) ∨
          x = .unchanged := by
        intro x hx
        rcases List.mem_append.1 hx with hx | hx
        · exact Or.inl ((postponedStates_mem qs h' x).1 hx)
        · obtain ⟨p, hp, rfl⟩ := List.mem_map.1 hx
          simp only [executed, List.mem_filter] at hp
          obtain ⟨q, hq', rfl⟩ := (mem_pres _ _).1 hp.1
          have hpp : q.pre.postponed = false := by simpa using hp.2
          rcases (h' q hq').2.2 hpp with hh | hh | hh
          · exact Or.inr (Or.inr hh)
          · exact Or.inr (Or.inl ⟨hh, q.pre, hp.1, hpp, hh⟩)
          · exact absurd ⟨q.pre, hp.1, hpp, hh⟩ hf
      have hc : (∃ p ∈ pres qs, p.postponed = false ∧ p.state = .changed) →
          TState.changed ∈ allStates qs := by
        rintro ⟨p, hp, h1, h2⟩
        refine List.mem_append.2 (Or.inr (List.mem_map.2 ⟨p, ?_, h2⟩))
        simp [executed, hp, h1]
      have hp : (∃ p ∈ pres qs, p.postponed = true) → TState.postponed ∈ allStates qs := by
        intro hx
        exact List.mem_append.2 (Or.inl ((postponedStates_mem qs h' _).2 ⟨rfl, hx⟩))
      have hs3 : s = .changed ∨ s = .postponed ∨ s = .unchanged := by
        rcases hmem with hm | hm
        · exact Or.inr (Or.inr hm)
        · rcases hall s hm with hm | hm | hm
          · exact Or.inr (Or.inl hm.1)
          · exact Or.inl hm.1
          · exact Or.inr (Or.inr hm)
      have hchg : s = .changed ↔ ∃ p ∈ pres qs, p.postponed = false ∧ p.state = .changed := by
        constructor
        · rintro rfl
          rcases hmem with hm | hm
          · cases hm
          · rcases hall _ hm with hm | hm | hm
            · cases hm.1
            · exact hm.2
            · cases hm
        · intro hx
          have := hge _ (hc hx)
          rcases hs3 with rfl | rfl | rfl
          · rfl
          · exact absurd this (by decide)
          · exact absurd this (by decide)
      refine ⟨hchg, ?_, hs3⟩
      constructor
      · rintro rfl
        refine ⟨?_, fun hx => by have := hchg.2 hx; cases this⟩
        rcases hmem with hm | hm
        · cases hm
        · rcases hall _ hm with hm | hm | hm
          · exact hm.2
          · cases hm.1
          · cases hm
      · rintro ⟨hx, hy⟩
        have := hge _ (hp hx)
        rcases hs3 with rfl | rfl | rfl
        · exact absurd (hchg.1 rfl) hy
        · rfl
        · exact absurd this (by decide)

/-- The caller gets the first prerequisite of the type it asked for among those that were executed
and are not ad hoc; it is an error of the caller (assertion) if there is none. -/
theorem found_first (h : Ok ps) (hf : ¬ SomeFailed (pres (range n ps))) :
    let W := (pres (range n ps)).filter wanted
    ((executePrerequisites tt kg mt n ps).1 = .assertFailed ↔ tt = true ∧ W = []) ∧
    ∀ r i, (executePrerequisites tt kg mt n ps).1 = .ok r i →
      i = if tt then W.head?.map Pre.id else none := by
  have h' := range_ok (n := n) h
  unfold executePrerequisites
  rw [both_ok false tt kg mt _ h' hf]
  cases tt with
  | false => simp [rtAfter]
  | true =>
    simp only [rtAfter, if_true]
    cases hw : (pres (range n ps)).filter wanted with
    | nil => simp
    | cons x xs =>
      simp

/-- Afterwards the ad hoc and the postponed prerequisites are blanked out, and nothing else is
touched (the others keep their places). -/
theorem blanked (h : Ok ps) (hf : ¬ SomeFailed (pres (range n ps))) (k : Nat) (s : Slot) :
    (executePrerequisites tt kg mt n ps).2[k]? = some (some s) ↔
      ps[k]? = some (some s) ∧
        (k < (range n ps).length → s.pre.postponed = false ∧ s.pre.adhoc = false) := by
  have h' := range_ok (n := n) h
  unfold executePrerequisites
  rw [both_ok false tt kg mt _ h' hf]
  have hlen : (left (range n ps)).length = (range n ps).length := by simp [left]
  have hpre : ∀ k, k < (range n ps).length → (range n ps)[k]? = ps[k]? := by
    intro k hk
    unfold range at hk ⊢
    split at hk <;> rename_i h0
    · simp [h0]
    · simp [h0, List.getElem?_take]
      simp [List.length_take] at hk
      omega
  by_cases hk : k < (range n ps).length
  · simp only [hk, true_imp_iff]
    rw [List.getElem?_append_left (by omega)]
    rw [left, List.getElem?_map, hpre k hk]
    have hin : ∀ s, ps[k]? = some (some s) → some s ∈ range n ps := by
      intro s hs
      rw [← hpre k hk] at hs
      exact List.mem_of_getElem? hs
    cases ho : ps[k]? with
    | none => simp
    | some o =>
      cases o with
      | none => simp [blankAdhoc, blankPostponed]
      | some q =>
        have hq := h' q (hin q ho)
        simp only [Option.map_some, Option.some.injEq]
        by_cases hs : q.async = .postponed
        · have hpq := hq.1.1 hs
          simp only [blankPostponed, if_pos hs, blankAdhoc]
          constructor
          · intro hc; cases hc
          · rintro ⟨rfl, hc, -⟩; rw [hpq] at hc; cases hc
        · have hpq : q.pre.postponed = false := by
            cases hx : q.pre.postponed
            · rfl
            · exact absurd (hq.1.2 hx) hs
          simp only [blankPostponed, if_neg hs, blankAdhoc]
          cases had : q.pre.adhoc with
          | true =>
            simp
            rintro rfl -
            exact had
          | false =>
            simp
            rintro rfl
            exact ⟨hpq, had⟩
  · simp only [hk, false_imp_iff, and_true]
    rw [List.getElem?_append_right (by omega), hlen, List.getElem?_drop]
    rw [show (range n ps).length + (k - (range n ps).length) = k by omega]

/-- Executing in reverse gives the same: the same result, the same prerequisite and the same
slots. -/
theorem reverse_same (h : Ok ps) (hf : ¬ SomeFailed (pres (range n ps))) :
    reverseExecutePrerequisites tt kg mt n ps = executePrerequisites tt kg mt n ps := by
  have h' := range_ok (n := n) h
  have hp : (range n ps).reverse.Perm (range n ps) := List.reverse_perm _
  have hf' : ¬ SomeFailed (pres (range n ps).reverse) :=
    fun hc => hf ((someFailed_perm (hp.filterMap _)).1 hc)
  unfold reverseExecutePrerequisites executePrerequisites
  rw [both_ok false tt kg mt _ h' hf, both_ok true tt kg mt _ (ok_reverse h') hf']
  have h1 : rtAfter true tt none (((pres (range n ps).reverse).filter wanted).map Pre.id) =
      rtAfter false tt none (((pres (range n ps)).filter wanted).map Pre.id) := by
    rw [pres_reverse, List.filter_reverse, List.map_reverse, rtAfter_reverse]
  have h2 : (decide (mt = nonexistent) || (executed (range n ps).reverse).any (stale mt)) =
      (decide (mt = nonexistent) || (executed (range n ps)).any (stale mt)) := by
    rw [Bool.eq_iff_iff, stale_iff, stale_iff]
    exact mustRebuild_perm (hp.filterMap _)
  have h3 : mergeAll (allStates (range n ps).reverse) = mergeAll (allStates (range n ps)) :=
    merge_order_independent _ _ (allStates_perm hp)
  have h4 : (left (range n ps).reverse).reverse = left (range n ps) := by
    simp [left]
  simp only [h1, h2, h3, h4]

theorem reverse_fails_iff (h : Ok ps) :
    (reverseExecutePrerequisites tt kg mt n ps).1 = .failed ↔ SomeFailed (pres (range n ps)) := by
  have h' := range_ok (n := n) h
  by_cases hf : SomeFailed (pres (range n ps))
  · have hf' : SomeFailed (pres (range n ps).reverse) :=
      (someFailed_perm ((List.reverse_perm (range n ps)).filterMap _)).2 hf
    unfold reverseExecutePrerequisites
    simp [both_failed true tt kg mt _ (ok_reverse h') hf', hf]
  · rw [reverse_same tt kg mt n ps h hf]
    exact fails_iff tt kg mt n ps h

/-- In whatever order the prerequisites are listed, the outcome (failure, rebuild or the state) is
the same. -/
theorem order_irrelevant (qs : List (Option Slot)) (h : Ok ps) (hp : ps.Perm qs) :
    (executePrerequisites false kg mt 0 ps).1 = (executePrerequisites false kg mt 0 qs).1 := by
  have hq : Ok qs := fun p hm => h p (hp.mem_iff.2 hm)
  have hpp : (pres ps).Perm (pres qs) := hp.filterMap _
  have e : ∀ l, range 0 l = l := fun l => by simp [range]
  by_cases hf : SomeFailed (pres ps)
  · rw [(fails_iff false kg mt 0 ps h).2 (by rw [e]; exact hf),
      (fails_iff false kg mt 0 qs hq).2 (by rw [e]; exact (someFailed_perm hpp).1 hf)]
  · have hf' : ¬ SomeFailed (pres qs) := fun hc => hf ((someFailed_perm hpp).2 hc)
    unfold executePrerequisites
    simp only [e]
    rw [both_ok false false kg mt _ h hf, both_ok false false kg mt _ hq hf']
    have h2 : (decide (mt = nonexistent) || (executed ps).any (stale mt)) =
        (decide (mt = nonexistent) || (executed qs).any (stale mt)) := by
      rw [Bool.eq_iff_iff, stale_iff, stale_iff]
      exact mustRebuild_perm hpp
    have h3 : mergeAll (allStates ps) = mergeAll (allStates qs) :=
      merge_order_independent _ _ (allStates_perm hp)
    simp [h2, h3, rtAfter]

/-! ## Cases -/

/-- A source file of time 5. -/
def src : Slot :=
  { async := .unchanged
    pre := { id := 1, postponed := false, state := .unchanged, mtime := some 5, adhoc := false,
             filter := true, typed := true } }

/-- A generated file of time 7, changed in this run, executed asynchronously. -/
def gen : Slot :=
  { async := .unknown
    pre := { id := 2, postponed := false, state := .changed, mtime := some 7, adhoc := false,
             filter := true, typed := false } }

/-- An alias that was changed, ad hoc. -/
def ali : Slot :=
  { async := .busy
    pre := { id := 3, postponed := false, state := .changed, mtime := none, adhoc := true,
             filter := false, typed := false } }

def lst : Slot :=
  { async := .postponed
    pre := { id := 4, postponed := true, state := .unknown, mtime := some 9, adhoc := false,
             filter := true, typed := true } }

def dead : Slot :=
  { async := .busy
    pre := { id := 5, postponed := false, state := .failed, mtime := some 1, adhoc := false,
             filter := true, typed := true } }

example : Ok [some src, none, some gen, some ali, some lst, some dead] := by
  intro p hp
  simp at hp
  rcases hp with rfl | rfl | rfl | rfl | rfl <;>
    simp [Slot.Ok, Finished, src, gen, ali, lst, dead]

example : executePrerequisites true true 8 0 [some lst, some src, none, some gen] =
    (.ok (some .changed) (some 1), [none, some src, none, some gen]) := by decide
example : (executePrerequisites true true 7 0 [some lst, some src, none, some gen]).1 =
    .ok none (some 1) := by decide
example : (executePrerequisites true true 8 0 [some lst, some src, none, some gen, some ali]) =
    (.ok none (some 1), [none, some src, none, some gen, none]) := by decide
example : (executePrerequisites true true 8 2 [some lst, some src, none, some gen, some ali]) =
    (.ok (some .postponed) (some 1), [none, some src, none, some gen, some ali]) := by decide
example : (executePrerequisites true true nonexistent 0 [some src]).1 = .ok none (some 1) := by decide
example : (executePrerequisites false false 8 0 [some src, some dead, some gen]).1 = .failed := by
  decide
example : (executePrerequisites true false 8 0 [some gen]).1 = .assertFailed := by decide
example : reverseExecutePrerequisites true true 8 0 [some lst, some src, none, some gen] =
    (.ok (some .changed) (some 1), [none, some src, none, some gen]) := by decide

/-- A prerequisite that was changed in this run but whose modification time is older than that of
the target does not make it out of date: the target is left alone although the state is
`changed`. -/
theorem changed_but_older_left_alone :
    Ok [some gen] ∧ (executePrerequisites false true 8 0 [some gen]).1 = .ok (some .changed) none := by
  refine ⟨?_, by decide⟩
  intro p hp
  simp at hp
  subst hp
  simp [Slot.Ok, Finished, gen]

end Verif.OutOfDate
