import Verif.TestSel.Meaning

/-!
# Test selection: lemmas
-/

namespace Verif.TestSel

variable {C : Type} [DecidableEq C]

theorem sub_iff (p q : Path C) : sub p q = true ↔ q <+: p := by
  simp [sub, List.isPrefixOf_iff_prefix]

theorem matchTarget_iff (search : Nm C → Option Nat) (t : Target C) (n : Nm C) :
    matchTarget search t n = true ↔ (whatOf search n).covers t := by
  unfold matchTarget whatOf Nm.typed
  cases n.type with
  | none => simp [What.covers, sub_iff]
  | some ty =>
    simp [What.covers]
    constructor
    · rintro ⟨⟨⟨h1, h2⟩, h3⟩, h4⟩; exact ⟨h3, h2, h1, h4⟩
    · rintro ⟨h3, h2, h1, h4⟩; exact ⟨⟨⟨h1, h2⟩, h3⟩, h4⟩

theorem sense_target {n : Nm C} {ns} (h1 : n.pair = false) (h2 : n.qualified = false)
    (h3 : n.typed = true ∨ (n.dir ≠ [] ∧ n.value = [])) :
    sense (n :: ns) = .ok (some n, none, ns) := by
  have : (n.typed || !n.dir.isEmpty) = true := by
    rcases h3 with h | ⟨h, _⟩
    · simp [h]
    · simp [h]
  simp [sense, h1, this, validate, h2]

theorem sense_id {n : Nm C} {ns} (h1 : n.pair = false) (h2 : n.qualified = false)
    (h3 : n.type = none) (h4 : n.dir = []) (h5 : n.value ≠ []) :
    sense (n :: ns) = .ok (none, some n, ns) := by
  simp [sense, h1, h2, h3, h4, h5, validate, Nm.typed, Nm.simple, Nm.empty]

theorem sense_both {n m : Nm C} {ns} (h1 : n.pair = true) (h2 : n.qualified = false)
    (h2' : m.qualified = false) (h3 : m.type = none) (h4 : m.dir = []) (h5 : m.value ≠ []) :
    sense (n :: m :: ns) = .ok (some n, some m, ns) := by
  simp [sense, h1, h2, h2', h3, h4, h5, validate, Nm.typed, Nm.simple, Nm.empty]

/-- What a loop that goes over all the requests computes: the last value is false if any
request was considered and none matched. -/
theorem loop_spec {search : Nm C → Option Nat}
    {body : Option (Nm C) → Option (Nm C) → Bool → Bool × Bool}
    {considered matched : Request C → Prop} {ns : List (Nm C)} {rs : List (Request C)}
    (hm : ∀ r, matched r → considered r)
    (hb : ∀ tn pn r, ∀ q : Request C, q.what = tn.map (whatOf search) → q.id = pn.map (·.value) →
      (matched q → body tn pn r = (true, true)) ∧
      (¬ considered q → body tn pn r = (r, false)) ∧
      (considered q → ¬ matched q → body tn pn r = (false, false)))
    (hd : Denotes search ns rs) :
    ∀ k r, ns.length ≤ k →
      loop body k ns r = .ok true ∧ (((∃ q ∈ rs, matched q) ∨ ((∀ q ∈ rs, ¬ considered q) ∧ r = true))) ∨
      loop body k ns r = .ok false ∧ (∀ q ∈ rs, ¬ matched q) ∧ ((∃ q ∈ rs, considered q) ∨ r = false) := by
  -- One iteration.
  have one : ∀ (q : Request C) (tn pn : Option (Nm C)) (n : Nm C) (ns ms : List (Nm C))
      (rs : List (Request C)) (k : Nat) (r : Bool),
      q.what = tn.map (whatOf search) → q.id = pn.map (·.value) →
      sense (n :: ns) = .ok (tn, pn, ms) →
      (∀ r, loop body k ms r = .ok true ∧
          (((∃ q ∈ rs, matched q) ∨ ((∀ q ∈ rs, ¬ considered q) ∧ r = true))) ∨
        loop body k ms r = .ok false ∧ (∀ q ∈ rs, ¬ matched q) ∧
          ((∃ q ∈ rs, considered q) ∨ r = false)) →
      loop body (k + 1) (n :: ns) r = .ok true ∧
          (((∃ q' ∈ q :: rs, matched q') ∨ ((∀ q' ∈ q :: rs, ¬ considered q') ∧ r = true))) ∨
        loop body (k + 1) (n :: ns) r = .ok false ∧ (∀ q' ∈ q :: rs, ¬ matched q') ∧
          ((∃ q' ∈ q :: rs, considered q') ∨ r = false) := by
    intro q tn pn n ns ms rs k r e1 e2 hs ih
    obtain ⟨b1, b2, b3⟩ := hb tn pn r q e1 e2
    by_cases hq : matched q
    · left
      refine ⟨?_, .inl ⟨q, List.mem_cons_self, hq⟩⟩
      simp only [loop, hs, b1 hq]
    · by_cases hc : considered q
      · have e : loop body (k + 1) (n :: ns) r = loop body k ms false := by
          simp only [loop, hs, b3 hc hq]
        rw [e]
        rcases ih false with ⟨h1, h2⟩ | ⟨h1, h2, h3⟩
        · left
          rcases h2 with ⟨q', hq', hm'⟩ | ⟨_, h⟩
          · exact ⟨h1, .inl ⟨q', List.mem_cons_of_mem _ hq', hm'⟩⟩
          · cases h
        · right
          refine ⟨h1, ?_, .inl ⟨q, List.mem_cons_self, hc⟩⟩
          intro q' hq'
          rcases List.mem_cons.mp hq' with rfl | h
          · exact hq
          · exact h2 q' h
      · have e : loop body (k + 1) (n :: ns) r = loop body k ms r := by
          simp only [loop, hs, b2 hc]
        rw [e]
        rcases ih r with ⟨h1, h2⟩ | ⟨h1, h2, h3⟩
        · left
          rcases h2 with ⟨q', hq', hm'⟩ | ⟨h, h'⟩
          · exact ⟨h1, .inl ⟨q', List.mem_cons_of_mem _ hq', hm'⟩⟩
          · refine ⟨h1, .inr ⟨?_, h'⟩⟩
            intro q' hq'
            rcases List.mem_cons.mp hq' with rfl | hh
            · exact hc
            · exact h q' hh
        · right
          refine ⟨h1, ?_, ?_⟩
          · intro q' hq'
            rcases List.mem_cons.mp hq' with rfl | h
            · exact hq
            · exact h2 q' h
          · rcases h3 with ⟨q', hq', hc'⟩ | h
            · exact .inl ⟨q', List.mem_cons_of_mem _ hq', hc'⟩
            · exact .inr h
  induction hd with
  | nil =>
    intro k r _
    cases r
    · right
      refine ⟨?_, by simp, .inr rfl⟩
      cases k <;> rfl
    · left
      refine ⟨?_, .inr ⟨by simp, rfl⟩⟩
      cases k <;> rfl
  | @target n ns rs hd h1 h2 h3 ih =>
    intro k r hk
    cases k with
    | zero => simp at hk
    | succ k =>
      exact one _ (some n) none n ns ns rs k r rfl rfl (sense_target h1 h2 h3)
        (fun r => ih k r (by simp at hk; omega))
  | @id n ns rs hd h1 h2 h3 h4 h5 ih =>
    intro k r hk
    cases k with
    | zero => simp at hk
    | succ k =>
      exact one _ none (some n) n ns ns rs k r rfl rfl (sense_id h1 h2 h3 h4 h5)
        (fun r => ih k r (by simp at hk; omega))
  | @both n m ns rs hd h1 h2 h3 h4 h5 h6 h7 ih =>
    intro k r hk
    cases k with
    | zero => simp at hk
    | succ k =>
      exact one _ (some n) (some m) n (m :: ns) ns rs k r rfl rfl (sense_both h1 h2 h4 h5 h6 h7)
        (fun r => ih k r (by simp at hk; omega))

theorem loop_iff {search : Nm C → Option Nat}
    {body : Option (Nm C) → Option (Nm C) → Bool → Bool × Bool}
    {considered matched : Request C → Prop} {ns : List (Nm C)} {rs : List (Request C)}
    (hm : ∀ r, matched r → considered r)
    (hb : ∀ tn pn r, ∀ q : Request C, q.what = tn.map (whatOf search) → q.id = pn.map (·.value) →
      (matched q → body tn pn r = (true, true)) ∧
      (¬ considered q → body tn pn r = (r, false)) ∧
      (considered q → ¬ matched q → body tn pn r = (false, false)))
    (hd : Denotes search ns rs) :
    ∃ b, loop body ns.length ns true = .ok b ∧
      (b = true ↔ (∀ q ∈ rs, ¬ considered q) ∨ ∃ q ∈ rs, matched q) := by
  rcases loop_spec hm hb hd ns.length true (Nat.le_refl _) with ⟨h1, h2⟩ | ⟨h1, h2, h3⟩
  · refine ⟨true, h1, ?_⟩
    simp only [true_iff]
    rcases h2 with h | ⟨h, _⟩
    · exact .inr h
    · exact .inl h
  · refine ⟨false, h1, ?_⟩
    simp only [Bool.false_eq_true, false_iff, not_or]
    constructor
    · intro h
      rcases h3 with ⟨q, hq, hc⟩ | h'
      · exact h q hq hc
      · cases h'
    · rintro ⟨q, hq, hm'⟩; exact h2 q hq hm'

theorem related_sub (p id : Path C) : (sub p id || sub id p) = true ↔ Related p id := by
  rw [Bool.or_eq_true, sub_iff, sub_iff]
  unfold Related
  exact or_comm

/-- Two prefixes of the same path are comparable. -/
theorem prefix_comparable {a b c : Path C} (ha : a <+: c) (hb : b <+: c) : Related a b :=
  List.prefix_or_prefix_of_prefix ha hb

theorem Related.shorter {p q r : Path C} (h : Related p q) (hr : r <+: q) : Related p r := by
  rcases h with h | h
  · exact prefix_comparable h hr
  · exact .inr (hr.trans h)

end Verif.TestSel
