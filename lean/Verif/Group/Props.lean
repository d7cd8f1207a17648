import Verif.Group.Model
import Verif.Util.Tally

/-! C25: the members of a group share the state and the modification time of the group, and its
recipe runs once however many members (and others) ask for it and however their requests
interleave. -/

namespace Verif.Group

open Verif.TargetState Verif.Util

/-! ## Invariant -/

def wI : Kind × At → Nat
  | (_, .idle) => 1
  | _ => 0
def wC : Kind × At → Nat
  | (_, .counted) => 1
  | _ => 0
def wR : Kind × At → Nat
  | (_, .running) => 1
  | _ => 0
def wW : Kind × At → Nat
  | (_, .waiting) => 1
  | _ => 0
def wG : Kind × At → Nat
  | (_, .done .group) => 1
  | _ => 0
def wP : Kind × At → Nat
  | (_, .done .postponed) => 1
  | _ => 0
def wX : Kind × At → Nat
  | (_, .done .group) => 0
  | (_, .done .postponed) => 0
  | (_, .done _) => 1
  | _ => 0

structure Inv (last noop : Bool) (t : Int) (ks : List Kind) (s : S) : Prop where
  hlast : s.last = last
  kinds : s.reqs.map (·.1) = ks
  idle : tally wI s.reqs = s.left
  other : tally wX s.reqs = 0
  first : last = false → tally wP s.reqs = 0
  lst : last = true → tally wC s.reqs + tally wR s.reqs + tally wW s.reqs + tally wG s.reqs ≤ 1 ∧
    (s.left ≠ 0 →
      tally wC s.reqs + tally wR s.reqs + tally wW s.reqs + tally wG s.reqs = 0) ∧
    (s.left = 0 → ks ≠ [] →
      tally wC s.reqs + tally wR s.reqs + tally wW s.reqs + tally wG s.reqs = 1)
  cnt : (s.cnt = .applied ∧ tally wR s.reqs = 0 ∧ tally wW s.reqs = 0 ∧ tally wG s.reqs = 0 ∧
      s.runs = 0 ∧ s.gstate = (if noop then .unchanged else .unknown) ∧ s.gmtime = t) ∨
    (s.cnt = .busy ∧ tally wR s.reqs = 1 ∧ tally wG s.reqs = 0 ∧ s.runs = 1 ∧ noop = false ∧
      s.gstate = .unknown) ∨
    (s.cnt = .executed ∧ tally wR s.reqs = 0 ∧ tally wG s.reqs ≠ 0 ∧ Outcome s.gstate ∧
      ((noop = true ∧ s.runs = 0 ∧ s.gstate = .unchanged ∧ s.gmtime = t) ∨
       (noop = false ∧ s.runs = 1)))

theorem tally_init (w : Kind × At → Nat) (c : Nat) (h : ∀ k, w (k, .idle) = c) (ks : List Kind) :
    tally w (ks.map fun k => (k, At.idle)) = ks.length * c := by
  induction ks with
  | nil => simp [tally_nil]
  | cons k ks ih => rw [List.map_cons, tally_cons, ih, h, List.length_cons, Nat.succ_mul]; omega

theorem inv_init (last noop : Bool) (t : Int) (ks : List Kind) :
    Inv last noop t ks (init last noop t ks) := by
  have h0 := fun w h => tally_init w 0 h ks
  have h1 := tally_init wI 1 (fun _ => rfl) ks
  have hC := h0 wC (fun _ => rfl)
  have hR := h0 wR (fun _ => rfl)
  have hW := h0 wW (fun _ => rfl)
  have hG := h0 wG (fun _ => rfl)
  have hP := h0 wP (fun _ => rfl)
  have hX := h0 wX (fun _ => rfl)
  refine ⟨rfl, ?_, ?_, ?_, ?_, ?_, Or.inl ⟨rfl, ?_, ?_, ?_, rfl, rfl, rfl⟩⟩
  · simp [init, Function.comp_def]
  · simpa [init] using h1
  · simpa [init] using hX
  · intro _; simpa [init] using hP
  · intro _
    simp only [init, hC, hR, hW, hG]
    refine ⟨by omega, by omega, ?_⟩
    intro h hne
    exact absurd (List.length_eq_zero_iff.1 h) hne
  · simpa [init] using hR
  · simpa [init] using hW
  · simpa [init] using hG

theorem setReq_get {l : List (Kind × At)} {i : Nat} {k : Kind} {a b : At} (h : l[i]? = some (k, a)) :
    setReq l i b = l.set i (k, b) := by
  unfold setReq; rw [h]

theorem map_set_fst {l : List (Kind × At)} {i : Nat} {k : Kind} {a b : At}
    (h : l[i]? = some (k, a)) : (l.set i (k, b)).map (·.1) = l.map (·.1) := by
  rw [List.map_set]
  apply List.ext_getElem?
  intro j
  rw [List.getElem?_set]
  split
  · rename_i hij
    subst hij
    rw [List.getElem?_map, h]
    have := (List.getElem?_eq_some_iff.1 h).1
    simp [this]
  · rfl

theorem memberState_group {gs : TState} (h : gs ≠ .postponed) : memberState gs = .group := by
  unfold memberState; rw [if_pos h]; rfl

theorem executedState_ne (s : TState) : executedState s ≠ .postponed := by
  unfold executedState; split
  · decide
  · assumption

theorem inv_step {last noop : Bool} {t : Int} {ks : List Kind} {s s' : S} (i : Nat) (o : TState)
    (t' : Int) (hi : Inv last noop t ks s) (ho : Outcome o) (h : step i o t' s = some s') :
    Inv last noop t ks s' := by
  obtain ⟨hl, hk, hI, hX, hf, hL, hc⟩ := hi
  unfold step at h
  split at h
  · -- idle
    rename_i k hreq
    have e := fun b => setReq_get (b := b) hreq
    have em := fun b => map_set_fst (b := b) hreq
    have eI := fun b => tally_set (w := wI) (q := (k, b)) hreq
    have eC := fun b => tally_set (w := wC) (q := (k, b)) hreq
    have eR := fun b => tally_set (w := wR) (q := (k, b)) hreq
    have eW := fun b => tally_set (w := wW) (q := (k, b)) hreq
    have eG := fun b => tally_set (w := wG) (q := (k, b)) hreq
    have eP := fun b => tally_set (w := wP) (q := (k, b)) hreq
    have eX := fun b => tally_set (w := wX) (q := (k, b)) hreq
    have hks : ks ≠ [] := by
      intro hks; rw [hks] at hk
      have : s.reqs = [] := by simpa using hk
      rw [this] at hreq; cases hreq
    split at h
    · cases h
    · rename_i hleft
      simp only at h
      split at h
      · rename_i hlast
        cases h
        have e := e (.done .postponed)
        have hm : memberState .postponed = .postponed := rfl
        rw [hm]
        have em := em (.done .postponed)
        have eI : tally wI _ + 1 = tally wI s.reqs + 0 := eI (.done .postponed)
        have eC : tally wC _ + 0 = tally wC s.reqs + 0 := eC (.done .postponed)
        have eR : tally wR _ + 0 = tally wR s.reqs + 0 := eR (.done .postponed)
        have eW : tally wW _ + 0 = tally wW s.reqs + 0 := eW (.done .postponed)
        have eG : tally wG _ + 0 = tally wG s.reqs + 0 := eG (.done .postponed)
        have eP : tally wP _ + 0 = tally wP s.reqs + 1 := eP (.done .postponed)
        have eX : tally wX _ + 0 = tally wX s.reqs + 0 := eX (.done .postponed)
        rw [← e] at em eI eC eR eW eG eP eX
        rw [hl] at hlast
        refine ⟨hl, by rw [em]; exact hk, ?_, ?_, ?_, ?_, ?_⟩
        · show tally wI (setReq _ _ _) = s.left - 1; omega
        · show tally wX (setReq _ _ _) = 0; omega
        · intro hc'; rw [hlast.1] at hc'; cases hc'
        · intro hc'
          have hL := hL hc'
          show _ ∧ (s.left - 1 ≠ 0 → _) ∧ (s.left - 1 = 0 → _)
          dsimp only
          refine ⟨by omega, by omega, ?_⟩
          intro h0; exact absurd h0 hlast.2
        · dsimp only
          rcases hc with ⟨h1, h2, h3, h4, h5⟩ | ⟨h1, h2, h3, h4⟩ | ⟨h1, h2, h3, h4⟩
          · exact Or.inl ⟨h1, by omega, by omega, by omega, h5⟩
          · exact Or.inr (Or.inl ⟨h1, by omega, by omega, h4⟩)
          · exact Or.inr (Or.inr ⟨h1, by omega, by omega, h4⟩)
      · rename_i hlast
        cases h
        have e := e .counted
        have em := em .counted
        have eI : tally wI _ + 1 = tally wI s.reqs + 0 := eI .counted
        have eC : tally wC _ + 0 = tally wC s.reqs + 1 := eC .counted
        have eR : tally wR _ + 0 = tally wR s.reqs + 0 := eR .counted
        have eW : tally wW _ + 0 = tally wW s.reqs + 0 := eW .counted
        have eG : tally wG _ + 0 = tally wG s.reqs + 0 := eG .counted
        have eP : tally wP _ + 0 = tally wP s.reqs + 0 := eP .counted
        have eX : tally wX _ + 0 = tally wX s.reqs + 0 := eX .counted
        rw [← e] at em eI eC eR eW eG eP eX
        rw [hl] at hlast
        refine ⟨hl, by rw [em]; exact hk, ?_, ?_, ?_, ?_, ?_⟩
        · show tally wI (setReq _ _ _) = s.left - 1; omega
        · show tally wX (setReq _ _ _) = 0; omega
        · intro hc'
          have := hf hc'
          show tally wP (setReq _ _ _) = 0; omega
        · intro hc'
          have hL := hL hc'
          have h0 : s.left - 1 = 0 := by
            by_cases hx : s.left - 1 = 0
            · exact hx
            · exact absurd ⟨hc', hx⟩ hlast
          show _ ∧ (s.left - 1 ≠ 0 → _) ∧ (s.left - 1 = 0 → _)
          dsimp only
          refine ⟨by omega, by omega, ?_⟩
          intro _ _
          omega
        · dsimp only
          rcases hc with ⟨h1, h2, h3, h4, h5⟩ | ⟨h1, h2, h3, h4⟩ | ⟨h1, h2, h3, h4⟩
          · exact Or.inl ⟨h1, by omega, by omega, by omega, h5⟩
          · exact Or.inr (Or.inl ⟨h1, by omega, by omega, h4⟩)
          · exact Or.inr (Or.inr ⟨h1, by omega, by omega, h4⟩)
  · -- counted
    rename_i k hreq
    have e := fun b => setReq_get (b := b) hreq
    have em := fun b => map_set_fst (b := b) hreq
    have eI := fun b => tally_set (w := wI) (q := (k, b)) hreq
    have eC := fun b => tally_set (w := wC) (q := (k, b)) hreq
    have eR := fun b => tally_set (w := wR) (q := (k, b)) hreq
    have eW := fun b => tally_set (w := wW) (q := (k, b)) hreq
    have eG := fun b => tally_set (w := wG) (q := (k, b)) hreq
    have eP := fun b => tally_set (w := wP) (q := (k, b)) hreq
    have eX := fun b => tally_set (w := wX) (q := (k, b)) hreq
    split at h
    · rename_i hcnt
      rcases hc with ⟨h1, h2, h3, h4, h5, h6, h7⟩ | ⟨h1, -⟩ | ⟨h1, -⟩
      · split at h
        · rename_i hun
          cases h
          have hnoop : noop = true := by
            cases noop with
            | true => rfl
            | false => rw [hun] at h6; cases h6
          rw [memberState_group (by decide)]
          have e := e (.done .group)
          have em := em (.done .group)
          have eI : tally wI _ + 0 = tally wI s.reqs + 0 := eI (.done .group)
          have eC : tally wC _ + 1 = tally wC s.reqs + 0 := eC (.done .group)
          have eR : tally wR _ + 0 = tally wR s.reqs + 0 := eR (.done .group)
          have eW : tally wW _ + 0 = tally wW s.reqs + 0 := eW (.done .group)
          have eG : tally wG _ + 0 = tally wG s.reqs + 1 := eG (.done .group)
          have eP : tally wP _ + 0 = tally wP s.reqs + 0 := eP (.done .group)
          have eX : tally wX _ + 0 = tally wX s.reqs + 0 := eX (.done .group)
          rw [← e] at em eI eC eR eW eG eP eX
          refine ⟨hl, by rw [em]; exact hk, ?_, ?_, ?_, ?_, ?_⟩
          · dsimp only; omega
          · dsimp only; omega
          · intro hc'
            have := hf hc'
            dsimp only; omega
          · intro hc'
            have hL := hL hc'
            dsimp only
            refine ⟨by omega, by omega, fun x y => ?_⟩
            have := hL.2.2 x y
            omega
          · dsimp only
            exact Or.inr (Or.inr ⟨rfl, by omega, by omega, Or.inr (Or.inl hun),
              Or.inl ⟨hnoop, h5, hun, h7⟩⟩)
        · rename_i hun
          cases h
          have hnoop : noop = false := by
            cases noop with
            | false => rfl
            | true => exact absurd h6 hun
          have e := e .running
          have em := em .running
          have eI : tally wI _ + 0 = tally wI s.reqs + 0 := eI .running
          have eC : tally wC _ + 1 = tally wC s.reqs + 0 := eC .running
          have eR : tally wR _ + 0 = tally wR s.reqs + 1 := eR .running
          have eW : tally wW _ + 0 = tally wW s.reqs + 0 := eW .running
          have eG : tally wG _ + 0 = tally wG s.reqs + 0 := eG .running
          have eP : tally wP _ + 0 = tally wP s.reqs + 0 := eP .running
          have eX : tally wX _ + 0 = tally wX s.reqs + 0 := eX .running
          rw [← e] at em eI eC eR eW eG eP eX
          refine ⟨hl, by rw [em]; exact hk, ?_, ?_, ?_, ?_, ?_⟩
          · dsimp only; omega
          · dsimp only; omega
          · intro hc'
            have := hf hc'
            dsimp only; omega
          · intro hc'
            have hL := hL hc'
            dsimp only
            refine ⟨by omega, by omega, fun x y => ?_⟩
            have := hL.2.2 x y
            omega
          · dsimp only
            exact Or.inr (Or.inl ⟨rfl, by omega, by omega, by omega, hnoop, by
              rw [hnoop] at h6; exact h6⟩)
      · rw [h1] at hcnt; cases hcnt
      · rw [h1] at hcnt; cases hcnt
    · rename_i hcnt
      cases h
      have e := e .waiting
      have em := em .waiting
      have eI : tally wI _ + 0 = tally wI s.reqs + 0 := eI .waiting
      have eC : tally wC _ + 1 = tally wC s.reqs + 0 := eC .waiting
      have eR : tally wR _ + 0 = tally wR s.reqs + 0 := eR .waiting
      have eW : tally wW _ + 0 = tally wW s.reqs + 1 := eW .waiting
      have eG : tally wG _ + 0 = tally wG s.reqs + 0 := eG .waiting
      have eP : tally wP _ + 0 = tally wP s.reqs + 0 := eP .waiting
      have eX : tally wX _ + 0 = tally wX s.reqs + 0 := eX .waiting
      rw [← e] at em eI eC eR eW eG eP eX
      refine ⟨hl, by rw [em]; exact hk, ?_, ?_, ?_, ?_, ?_⟩
      · dsimp only; omega
      · dsimp only; omega
      · intro hc'
        have := hf hc'
        dsimp only; omega
      · intro hc'
        have hL := hL hc'
        dsimp only
        refine ⟨by omega, by omega, fun x y => ?_⟩
        have := hL.2.2 x y
        omega
      · dsimp only
        rcases hc with ⟨h1, -⟩ | ⟨h1, h2, h3, h4⟩ | ⟨h1, -⟩
        · rw [h1] at hcnt; cases hcnt
        · exact Or.inr (Or.inl ⟨h1, by omega, by omega, h4⟩)
        · rw [h1] at hcnt; cases hcnt
    · rename_i hcnt
      cases h
      rw [memberState_group (executedState_ne _)]
      have e := e (.done .group)
      have em := em (.done .group)
      have eI : tally wI _ + 0 = tally wI s.reqs + 0 := eI (.done .group)
      have eC : tally wC _ + 1 = tally wC s.reqs + 0 := eC (.done .group)
      have eR : tally wR _ + 0 = tally wR s.reqs + 0 := eR (.done .group)
      have eW : tally wW _ + 0 = tally wW s.reqs + 0 := eW (.done .group)
      have eG : tally wG _ + 0 = tally wG s.reqs + 1 := eG (.done .group)
      have eP : tally wP _ + 0 = tally wP s.reqs + 0 := eP (.done .group)
      have eX : tally wX _ + 0 = tally wX s.reqs + 0 := eX (.done .group)
      rw [← e] at em eI eC eR eW eG eP eX
      refine ⟨hl, by rw [em]; exact hk, ?_, ?_, ?_, ?_, ?_⟩
      · dsimp only; omega
      · dsimp only; omega
      · intro hc'
        have := hf hc'
        dsimp only; omega
      · intro hc'
        have hL := hL hc'
        dsimp only
        refine ⟨by omega, by omega, fun x y => ?_⟩
        have := hL.2.2 x y
        omega
      · dsimp only
        rcases hc with ⟨h1, -⟩ | ⟨h1, -⟩ | ⟨h1, h2, h3, h4⟩
        · rw [h1] at hcnt; cases hcnt
        · rw [h1] at hcnt; cases hcnt
        · exact Or.inr (Or.inr ⟨h1, by omega, by omega, h4⟩)
  · -- running
    rename_i k hreq
    have e := setReq_get (b := .done .group) hreq
    have em := map_set_fst (b := .done .group) hreq
    have eI : tally wI _ + 0 = tally wI s.reqs + 0 := tally_set (q := (k, .done .group)) hreq
    have eC : tally wC _ + 0 = tally wC s.reqs + 0 := tally_set (q := (k, .done .group)) hreq
    have eR : tally wR _ + 1 = tally wR s.reqs + 0 := tally_set (q := (k, .done .group)) hreq
    have eW : tally wW _ + 0 = tally wW s.reqs + 0 := tally_set (q := (k, .done .group)) hreq
    have eG : tally wG _ + 0 = tally wG s.reqs + 1 := tally_set (q := (k, .done .group)) hreq
    have eP : tally wP _ + 0 = tally wP s.reqs + 0 := tally_set (q := (k, .done .group)) hreq
    have eX : tally wX _ + 0 = tally wX s.reqs + 0 := tally_set (q := (k, .done .group)) hreq
    rw [← e] at em eI eC eR eW eG eP eX
    rw [memberState_group (executedState_ne _)] at h
    cases h
    refine ⟨hl, by rw [em]; exact hk, ?_, ?_, ?_, ?_, ?_⟩
    · dsimp only; omega
    · dsimp only; omega
    · intro hc'
      have := hf hc'
      dsimp only; omega
    · intro hc'
      have hL := hL hc'
      dsimp only
      refine ⟨by omega, by omega, fun x y => ?_⟩
      have := hL.2.2 x y
      omega
    · dsimp only
      rcases hc with ⟨h1, h2, -⟩ | ⟨h1, h2, h3, h4, h5, h6⟩ | ⟨h1, h2, h3, h4⟩
      · omega
      · exact Or.inr (Or.inr ⟨rfl, by omega, by omega, ho, Or.inr ⟨h5, h4⟩⟩)
      · omega
  · -- waiting
    rename_i k hreq
    have e := setReq_get (b := .done .group) hreq
    have em := map_set_fst (b := .done .group) hreq
    have eI : tally wI _ + 0 = tally wI s.reqs + 0 := tally_set (q := (k, .done .group)) hreq
    have eC : tally wC _ + 0 = tally wC s.reqs + 0 := tally_set (q := (k, .done .group)) hreq
    have eR : tally wR _ + 0 = tally wR s.reqs + 0 := tally_set (q := (k, .done .group)) hreq
    have eW : tally wW _ + 1 = tally wW s.reqs + 0 := tally_set (q := (k, .done .group)) hreq
    have eG : tally wG _ + 0 = tally wG s.reqs + 1 := tally_set (q := (k, .done .group)) hreq
    have eP : tally wP _ + 0 = tally wP s.reqs + 0 := tally_set (q := (k, .done .group)) hreq
    have eX : tally wX _ + 0 = tally wX s.reqs + 0 := tally_set (q := (k, .done .group)) hreq
    rw [← e] at em eI eC eR eW eG eP eX
    rw [memberState_group (by decide)] at h
    split at h
    · rename_i hcnt
      cases h
      refine ⟨hl, by rw [em]; exact hk, ?_, ?_, ?_, ?_, ?_⟩
      · dsimp only; omega
      · dsimp only; omega
      · intro hc'
        have := hf hc'
        dsimp only; omega
      · intro hc'
        have hL := hL hc'
        dsimp only
        refine ⟨by omega, by omega, fun x y => ?_⟩
        have := hL.2.2 x y
        omega
      · dsimp only
        rcases hc with ⟨h1, -⟩ | ⟨h1, -⟩ | ⟨h1, h2, h3, h4⟩
        · rw [h1] at hcnt; cases hcnt
        · rw [h1] at hcnt; cases hcnt
        · exact Or.inr (Or.inr ⟨h1, by omega, by omega, h4⟩)
    · cases h
  · cases h
  · cases h

theorem reach_inv {last noop : Bool} {t : Int} {ks : List Kind} {s : S}
    (h : Reach last noop t ks s) : Inv last noop t ks s := by
  induction h with
  | init => exact inv_init _ _ _ _
  | step i o t' _ ho hs ih => exact inv_step i o t' ih ho hs

/-! ## The property -/

/-- Every requester has its answer. -/
def AllDone (s : S) : Prop :=
  ∀ (i : Nat) (k : Kind) (a : At), s.reqs[i]? = some (k, a) → ∃ st, a = .done st

/-- `execution_mode::last` turned the requester away. -/
def TurnedAway (s : S) (i : Nat) : Prop := ∃ k, s.reqs[i]? = some (k, .done .postponed)

theorem done_cases {last noop : Bool} {t : Int} {ks : List Kind} {s : S}
    (h : Inv last noop t ks s) {i : Nat} {k : Kind} {st : TState}
    (hi : s.reqs[i]? = some (k, .done st)) :
    (st = .group ∧ s.cnt = .executed) ∨ (st = .postponed ∧ last = true) := by
  have hX := tally_le (w := wX) hi
  rw [h.other] at hX
  have hG := tally_le (w := wG) hi
  have hP := tally_le (w := wP) hi
  cases st with
  | group =>
    left
    refine ⟨rfl, ?_⟩
    have hG : 1 ≤ tally wG s.reqs := hG
    rcases h.cnt with ⟨h1, h2, h3, h4, h5⟩ | ⟨h1, h2, h3, h4⟩ | ⟨h1, h2, h3, h4⟩
    · omega
    · omega
    · exact h1
  | postponed =>
    right
    refine ⟨rfl, ?_⟩
    have hP : 1 ≤ tally wP s.reqs := hP
    cases hl : last with
    | true => rfl
    | false => have := h.first hl; omega
  | uninitialized => exact absurd (show 1 ≤ 0 from hX) (by omega)
  | unknown => exact absurd (show 1 ≤ 0 from hX) (by omega)
  | unchanged => exact absurd (show 1 ≤ 0 from hX) (by omega)
  | busy => exact absurd (show 1 ≤ 0 from hX) (by omega)
  | changed => exact absurd (show 1 ≤ 0 from hX) (by omega)
  | failed => exact absurd (show 1 ≤ 0 from hX) (by omega)

/-- The recipe of the group is started at most once, and never if it is a noop. -/
theorem recipe_at_most_once {last noop : Bool} {t : Int} {ks : List Kind} {s : S}
    (h : Reach last noop t ks s) : s.runs ≤ 1 ∧ (noop = true → s.runs = 0) := by
  rcases (reach_inv h).cnt with ⟨-, -, -, -, h5, -⟩ | ⟨-, -, -, h4, h5, -⟩ | ⟨-, -, -, -, h5⟩
  · omega
  · refine ⟨by omega, fun hn => ?_⟩; rw [h5] at hn; cases hn
  · rcases h5 with ⟨h5, h6, -⟩ | ⟨h5, h6⟩
    · omega
    · refine ⟨by omega, fun hn => ?_⟩; rw [h5] at hn; cases hn

/-- When everybody who asked has an answer, the group has been executed, by running its recipe exactly
once unless it is a noop. -/
theorem recipe_exactly_once {last noop : Bool} {t : Int} {ks : List Kind} {s : S}
    (h : Reach last noop t ks s) (hd : AllDone s) (hne : ks ≠ []) :
    s.cnt = .executed ∧ s.runs = if noop then 0 else 1 := by
  have hi := reach_inv h
  -- nobody is on the way
  have hz : ∀ w : Kind × At → Nat, (∀ k st, w (k, .done st) = 0) → tally w s.reqs = 0 := by
    intro w hw
    by_cases hx : tally w s.reqs = 0
    · exact hx
    · obtain ⟨j, ⟨k, a⟩, hj, hwj⟩ := tally_pos hx
      obtain ⟨st, rfl⟩ := hd j k a hj
      exact absurd (hw k st) hwj
  have zI := hz wI (fun _ _ => rfl)
  have zC := hz wC (fun _ _ => rfl)
  have zR := hz wR (fun _ _ => rfl)
  have zW := hz wW (fun _ _ => rfl)
  have hG : tally wG s.reqs ≠ 0 := by
    cases hl : last with
    | true =>
      have := (hi.lst hl).2.2 (by have := hi.idle; omega) hne
      omega
    | false =>
      have hP := hi.first hl
      cases hr : s.reqs with
      | nil =>
        have := hi.kinds
        rw [hr] at this
        exact absurd this.symm hne
      | cons q qs =>
        have h0 : s.reqs[0]? = some (q.1, q.2) := by rw [hr]; rfl
        obtain ⟨st, hst⟩ := hd 0 _ _ h0
        rw [hst] at h0
        rcases done_cases hi h0 with ⟨rfl, -⟩ | ⟨-, hl'⟩
        · have : 1 ≤ tally wG s.reqs := tally_le (w := wG) h0
          rw [hr] at this; omega
        · rw [hl] at hl'; cases hl'
  rcases hi.cnt with ⟨-, -, -, h4, -⟩ | ⟨-, h2, -⟩ | ⟨h1, -, -, -, h5⟩
  · exact absurd h4 hG
  · omega
  · refine ⟨h1, ?_⟩
    rcases h5 with ⟨h5, h6, -⟩ | ⟨h5, h6⟩ <;> simp [h5, h6]

/-- A member that has its answer and was not turned away reports the state of the group (a postponed
group counts as unchanged, as everywhere) and the modification time of the group, and the group has
been executed, so that both are final. -/
theorem member_shares {last noop : Bool} {t : Int} {ks : List Kind} {s : S}
    (h : Reach last noop t ks s) {i : Nat} {adhoc : Bool} {st : TState}
    (hi : s.reqs[i]? = some (.member adhoc, .done st)) (hn : ¬ TurnedAway s i) (m : Int) :
    s.cnt = .executed ∧ Outcome s.gstate ∧
    reportedState s adhoc st = (if s.gstate = .postponed then .unchanged else s.gstate) ∧
    reportedMtime s adhoc st m = s.gmtime := by
  have hinv := reach_inv h
  rcases done_cases hinv hi with ⟨rfl, hc⟩ | ⟨rfl, -⟩
  · refine ⟨hc, ?_, ?_, ?_⟩
    · rcases hinv.cnt with ⟨h1, -⟩ | ⟨h1, -⟩ | ⟨-, -, -, h4, -⟩
      · rw [h1] at hc; cases hc
      · rw [h1] at hc; cases hc
      · exact h4
    · cases adhoc <;> simp [reportedState, groupState]
    · cases adhoc <;> simp [reportedMtime, groupState]
  · exact absurd ⟨_, hi⟩ hn

/-- Nobody is turned away unless in the last mode. -/
theorem first_mode {noop : Bool} {t : Int} {ks : List Kind} {s : S}
    (h : Reach false noop t ks s) (i : Nat) : ¬ TurnedAway s i := by
  rintro ⟨k, hk⟩
  rcases done_cases (reach_inv h) hk with ⟨h1, -⟩ | ⟨-, h1⟩ <;> cases h1

/-- In the last mode everybody but one (the last to ask) is turned away, before the group is touched. -/
theorem last_mode {noop : Bool} {t : Int} {ks : List Kind} {s : S}
    (h : Reach true noop t ks s) (hd : AllDone s) (hne : ks ≠ []) :
    ∃ i, i < ks.length ∧ ¬ TurnedAway s i ∧ ∀ j, j < ks.length → j ≠ i → TurnedAway s j := by
  have hi := reach_inv h
  have hz : ∀ w : Kind × At → Nat, (∀ k st, w (k, .done st) = 0) → tally w s.reqs = 0 := by
    intro w hw
    by_cases hx : tally w s.reqs = 0
    · exact hx
    · obtain ⟨j, ⟨k, a⟩, hj, hwj⟩ := tally_pos hx
      obtain ⟨st, rfl⟩ := hd j k a hj
      exact absurd (hw k st) hwj
  have zI := hz wI (fun _ _ => rfl)
  have zC := hz wC (fun _ _ => rfl)
  have zR := hz wR (fun _ _ => rfl)
  have zW := hz wW (fun _ _ => rfl)
  have hG : tally wG s.reqs = 1 := by
    have := (hi.lst rfl).2.2 (by have := hi.idle; omega) hne
    omega
  have hlen : s.reqs.length = ks.length := by rw [← hi.kinds, List.length_map]
  obtain ⟨i, ⟨k, a⟩, hik, hw⟩ := tally_pos (w := wG) (l := s.reqs) (by omega)
  have hii : i < s.reqs.length := (List.getElem?_eq_some_iff.1 hik).1
  obtain ⟨st, rfl⟩ := hd i k a hik
  have hst : st = .group := by
    rcases done_cases hi hik with ⟨h1, -⟩ | ⟨h1, -⟩
    · exact h1
    · subst h1; exact absurd rfl hw
  subst hst
  refine ⟨i, by omega, ?_, ?_⟩
  · rintro ⟨k', hk'⟩; rw [hik] at hk'; cases hk'
  · intro j hj hji
    have hjg : s.reqs[j]? = some s.reqs[j] := List.getElem?_eq_getElem (by omega)
    obtain ⟨st, hst⟩ := hd j s.reqs[j].1 s.reqs[j].2 hjg
    have hjg' : s.reqs[j]? = some (s.reqs[j].1, .done st) := by rw [hjg, ← hst]
    rcases done_cases hi hjg' with ⟨h1, -⟩ | ⟨h1, -⟩
    · subst h1
      have : 1 + 1 ≤ tally wG s.reqs := tally_le2 (w := wG) hji hjg' hik
      omega
    · subst h1; exact ⟨_, hjg'⟩

/-- While others have not asked yet, in the last mode, the recipe has not been started. -/
theorem last_mode_waits {noop : Bool} {t : Int} {ks : List Kind} {s : S}
    (h : Reach true noop t ks s) (hl : s.left ≠ 0) :
    s.runs = 0 ∧ s.cnt = .applied := by
  have hi := reach_inv h
  have hL := (hi.lst rfl).2.1 hl
  rcases hi.cnt with ⟨h1, -, -, -, h5, -⟩ | ⟨-, h2, -⟩ | ⟨-, -, h3, -⟩
  · exact ⟨h5, h1⟩
  · omega
  · omega

/-- A member that was turned away reports unchanged and its own time: it never looks at the group,
which may be executing at the same time. -/
theorem turned_away_reports (s : S) (i : Nat) (adhoc : Bool) (st : TState)
    (hi : s.reqs[i]? = some (.member adhoc, .done st)) (h : TurnedAway s i) (m : Int) :
    reportedState s adhoc st = .unchanged ∧ reportedMtime s adhoc st m = m ∧
    groupState adhoc st = false := by
  obtain ⟨k, hk⟩ := h
  rw [hi] at hk
  cases hk
  cases adhoc <;> simp [reportedState, reportedMtime, groupState]

/-- A member that has not been executed itself reports the state of the group once the group has been
executed (on behalf of others). -/
theorem not_executed_reports (s : S) (adhoc : Bool) (a : At) (ha : ∀ st, a ≠ .done st) (m : Int) :
    reportedState s adhoc (ownState a) = (if s.gstate = .postponed then .unchanged else s.gstate) ∧
    reportedMtime s adhoc (ownState a) m = s.gmtime := by
  have : ownState a = .unknown := by
    cases a with
    | done st => exact absurd rfl (ha st)
    | _ => rfl
  rw [this]
  cases adhoc <;> simp [reportedState, reportedMtime, groupState]

/-- What a member reports never changes after it has its answer. -/
theorem report_final {last noop : Bool} {t : Int} {ks : List Kind} {s s' : S}
    (h : Reach last noop t ks s) {i : Nat} {adhoc : Bool} {st : TState}
    (hi : s.reqs[i]? = some (.member adhoc, .done st)) {j : Nat} {o : TState} {t' : Int}
    (hs : step j o t' s = some s') (m : Int) :
    s'.reqs[i]? = some (.member adhoc, .done st) ∧
    reportedState s' adhoc st = reportedState s adhoc st ∧
    reportedMtime s' adhoc st m = reportedMtime s adhoc st m := by
  have hinv := reach_inv h
  have keep : ∀ k a b, s.reqs[j]? = some (k, a) → (∀ st, a ≠ .done st) →
      (setReq s.reqs j b)[i]? = some (.member adhoc, .done st) := by
    intro k a b hj ha
    rw [setReq_get hj, List.getElem?_set]
    split
    · rename_i hji
      subst hji
      rw [hi] at hj
      cases hj
      exact absurd rfl (ha st)
    · exact hi
  have same : s'.gstate = s.gstate → s'.gmtime = s.gmtime →
      reportedState s' adhoc st = reportedState s adhoc st ∧
      reportedMtime s' adhoc st m = reportedMtime s adhoc st m := by
    intro h1 h2
    unfold reportedState reportedMtime
    rw [h1, h2]
    exact ⟨rfl, rfl⟩
  unfold step at hs
  split at hs
  · rename_i k hj
    split at hs
    · cases hs
    · simp only at hs
      split at hs <;> cases hs <;> exact ⟨keep k _ _ hj (by simp), same rfl rfl⟩
  · rename_i k hj
    split at hs
    · split at hs <;> cases hs <;> exact ⟨keep k _ _ hj (by simp), same rfl rfl⟩
    · cases hs; exact ⟨keep k _ _ hj (by simp), same rfl rfl⟩
    · cases hs; exact ⟨keep k _ _ hj (by simp), same rfl rfl⟩
  · rename_i k hj
    have hR : 1 ≤ tally wR s.reqs := tally_le (w := wR) hj
    rcases done_cases hinv hi with ⟨rfl, hc⟩ | ⟨rfl, -⟩
    · rcases hinv.cnt with ⟨h1, -⟩ | ⟨h1, -⟩ | ⟨-, h2, -⟩
      · rw [h1] at hc; cases hc
      · rw [h1] at hc; cases hc
      · omega
    · cases hs
      refine ⟨keep k _ _ hj (by simp), ?_, ?_⟩
      · cases adhoc <;> simp [reportedState, groupState]
      · cases adhoc <;> simp [reportedMtime, groupState]
  · rename_i k hj
    split at hs
    · cases hs; exact ⟨keep k _ _ hj (by simp), same rfl rfl⟩
    · cases hs
  · cases hs
  · cases hs

/-- How many steps a requester can still make. -/
def steps : Kind × At → Nat
  | (_, .idle) => 3
  | (_, .counted) => 2
  | (_, .running) => 1
  | (_, .waiting) => 1
  | (_, .done _) => 0

/-- Every step brings the end closer, and until everybody has an answer there is a step to make: the
execution always ends with everybody having an answer. -/
theorem always_completes {last noop : Bool} {t : Int} {ks : List Kind} {s : S}
    (h : Reach last noop t ks s) :
    (∀ i o t' s', step i o t' s = some s' → tally steps s'.reqs < tally steps s.reqs) ∧
    (¬ AllDone s → ∃ i, ∀ o t', ∃ s', step i o t' s = some s') := by
  have hi := reach_inv h
  refine ⟨?_, ?_⟩
  · intro i o t' s' hs
    have key : ∀ k a b, s.reqs[i]? = some (k, a) → steps (k, b) < steps (k, a) →
        tally steps (setReq s.reqs i b) < tally steps s.reqs := by
      intro k a b hj hlt
      rw [setReq_get hj]
      have := tally_set (w := steps) (q := (k, b)) hj
      omega
    unfold step at hs
    split at hs
    · rename_i k hj
      split at hs
      · cases hs
      · simp only at hs
        split at hs <;> cases hs <;> exact key k _ _ hj (by simp [steps])
    · rename_i k hj
      split at hs
      · split at hs <;> cases hs <;> exact key k _ _ hj (by simp [steps])
      · cases hs; exact key k _ _ hj (by simp [steps])
      · cases hs; exact key k _ _ hj (by simp [steps])
    · rename_i k hj
      cases hs; exact key k _ _ hj (by simp [steps])
    · rename_i k hj
      split at hs
      · cases hs; exact key k _ _ hj (by simp [steps])
      · cases hs
    · cases hs
    · cases hs
  · intro hnd
    -- whoever runs can continue; else whoever is idle or counted; else the waiting ones
    by_cases hR : tally wR s.reqs = 0
    · by_cases hI : tally wI s.reqs = 0
      · by_cases hC : tally wC s.reqs = 0
        · by_cases hW : tally wW s.reqs = 0
          · exfalso
            apply hnd
            intro i k a hik
            cases a with
            | done st => exact ⟨st, rfl⟩
            | idle => have : 1 ≤ tally wI s.reqs := tally_le (w := wI) hik; omega
            | counted => have : 1 ≤ tally wC s.reqs := tally_le (w := wC) hik; omega
            | running => have : 1 ≤ tally wR s.reqs := tally_le (w := wR) hik; omega
            | waiting => have : 1 ≤ tally wW s.reqs := tally_le (w := wW) hik; omega
          · obtain ⟨i, ⟨k, a⟩, hik, hw⟩ := tally_pos hW
            have ha : a = .waiting := by cases a <;> simp_all [wW]
            subst ha
            have hc : s.cnt = .executed := by
              rcases hi.cnt with ⟨-, -, h3, -⟩ | ⟨-, h2, -⟩ | ⟨h1, -⟩
              · omega
              · omega
              · exact h1
            exact ⟨i, fun o t' => ⟨_, by simp only [step, hik, hc]; rfl⟩⟩
        · obtain ⟨i, ⟨k, a⟩, hik, hw⟩ := tally_pos hC
          have ha : a = .counted := by cases a <;> simp_all [wC]
          subst ha
          refine ⟨i, fun o t' => ?_⟩
          cases hc : s.cnt with
          | applied =>
            by_cases hg : s.gstate = .unchanged
            · exact ⟨_, by simp only [step, hik, hc]; exact if_pos hg⟩
            · exact ⟨_, by simp only [step, hik, hc]; exact if_neg hg⟩
          | busy => exact ⟨_, by simp only [step, hik, hc]; rfl⟩
          | executed => exact ⟨_, by simp only [step, hik, hc]; rfl⟩
      · obtain ⟨i, ⟨k, a⟩, hik, hw⟩ := tally_pos hI
        have ha : a = .idle := by cases a <;> simp_all [wI]
        subst ha
        have hl : s.left ≠ 0 := by have := hi.idle; omega
        refine ⟨i, fun o t' => ?_⟩
        by_cases hlast : s.last = true ∧ s.left - 1 ≠ 0
        · exact ⟨_, by simp only [step, hik, if_neg hl]; exact if_pos hlast⟩
        · exact ⟨_, by simp only [step, hik, if_neg hl]; exact if_neg hlast⟩
    · obtain ⟨i, ⟨k, a⟩, hik, hw⟩ := tally_pos hR
      have ha : a = .running := by cases a <;> simp_all [wR]
      subst ha
      exact ⟨i, fun o t' => ⟨_, by simp only [step, hik]; rfl⟩⟩

/-! ## Cases -/

/-- Runs requesters in the given order, all with the same outcome. -/
def runAll (o : TState) (t : Int) : List Nat → S → Option S
  | [], s => some s
  | i :: is, s => (step i o t s).bind (runAll o t is)

theorem runAll_reach {last noop : Bool} {t : Int} {ks : List Kind} {o : TState} (ho : Outcome o)
    {t' : Int} (is : List Nat) {s s' : S} (h : Reach last noop t ks s)
    (hr : runAll o t' is s = some s') : Reach last noop t ks s' := by
  induction is generalizing s with
  | nil => cases hr; exact h
  | cons i is ih =>
    simp only [runAll] at hr
    cases hs : step i o t' s with
    | none => rw [hs] at hr; cases hr
    | some s1 => rw [hs] at hr; exact ih (.step i o t' h ho hs) hr

/-- Two members and a direct dependent: the second member is first, the first one waits, the
dependent comes late. Everybody sees `changed`. -/
example : ∃ s, Reach false false 0 [.member false, .member true, .direct] s ∧
    s.reqs = [(.member false, .done .group), (.member true, .done .group),
      (.direct, .done .group)] ∧
    s.runs = 1 ∧ reportedState s false .group = .changed ∧ reportedMtime s true .group 3 = 7 := by
  refine ⟨_, runAll_reach (o := .changed) (t' := 7) (Or.inl rfl) [1, 0, 1, 0, 1, 0, 2, 2] .init rfl,
    by decide, by decide, by decide, by decide⟩

/-- Clean (the last mode): the first two are turned away, the third executes the recipe. -/
example : ∃ s, Reach true false 0 [.member false, .member true, .direct] s ∧
    s.reqs = [(.member false, .done .postponed), (.member true, .done .postponed),
      (.direct, .done .group)] ∧ s.runs = 1 ∧ s.gstate = .failed := by
  refine ⟨_, runAll_reach (o := .failed) (t' := 7) (Or.inr (Or.inr (Or.inr rfl)))
    [1, 0, 2, 2, 2] .init rfl, by decide, by decide, by decide⟩

/-- A noop group. -/
example : ∃ s, Reach false true 4 [.member false, .member false] s ∧ s.runs = 0 ∧
    reportedState s false .group = .unchanged ∧ reportedMtime s false .group 3 = 4 := by
  refine ⟨_, runAll_reach (o := .changed) (t' := 7) (Or.inl rfl)
    [1, 0, 0, 1] .init rfl, by decide, by decide, by decide⟩

end Verif.Group
