import Verif.ListFn.Model

/-! # Sequences and sorting: lemmas -/

namespace Verif.ListFn

/-- If the loop gets to a number that isn't less than the end without wrapping around, it ends with the
sequence. -/
theorem seqLoop_ends {e s : Nat} (hs : s ≠ 0) : ∀ n b, e ≤ b + n * s → b + n * s < max64 →
    (∀ m, m < n → b + m * s < e) →
    ∃ r, seqLoop e s (n + 1) b = some r ∧ Sequence b e s r := by
  intro n
  induction n with
  | zero =>
    intro b h1 _ _
    rw [Nat.zero_mul, Nat.add_zero] at h1
    refine ⟨[], by simp [seqLoop, Nat.not_lt.2 h1], .nil, fun n => ⟨nofun, fun ⟨h, k, hk⟩ => ?_⟩⟩
    have : b ≤ n := hk ▸ Nat.le_add_right _ _
    omega
  | succ n ih =>
    intro b h1 h2 h3
    have hb : b < e := by simpa using h3 0 (by omega)
    have heq : ∀ m, b + (m + 1) * s = b + s + m * s := fun m => by rw [Nat.succ_mul]; omega
    rw [heq] at h1 h2
    have hmod : (b + s) % max64 = b + s := Nat.mod_eq_of_lt (by omega)
    obtain ⟨r, h4, h5, h6⟩ := ih (b + s) h1 h2 (fun m hm => heq m ▸ h3 (m + 1) (by omega))
    refine ⟨b :: r, ?_, ?_, fun x => ?_⟩
    · rw [seqLoop, if_pos hb, hmod, h4]; rfl
    · refine List.pairwise_cons.2 ⟨fun x hx => ?_, h5⟩
      obtain ⟨_, k, rfl⟩ := (h6 x).1 hx
      have := Nat.pos_of_ne_zero hs
      omega
    · rw [List.mem_cons, h6]
      constructor
      · rintro (rfl | ⟨h, k, rfl⟩)
        · exact ⟨hb, 0, by simp⟩
        · exact ⟨h, k + 1, (heq k).symm⟩
      · rintro ⟨h, k, rfl⟩
        cases k with
        | zero => exact .inl (by simp)
        | succ k => exact .inr ⟨h, k, heq k⟩

/-- The loop can't be ended by more turns with another result. -/
theorem seqLoop_mono {e s : Nat} : ∀ k b r, seqLoop e s k b = some r → seqLoop e s (k + 1) b = some r := by
  intro k
  induction k with
  | zero => intro b r h; cases h
  | succ k ih =>
    intro b r h
    rw [seqLoop] at h ⊢
    split at h
    · rename_i hb
      rw [if_pos hb]
      cases h' : seqLoop e s k ((b + s) % max64) with
      | none => rw [h'] at h; cases h
      | some q => rw [h'] at h; rw [ih _ _ h']; exact h
    · rename_i hb
      rw [if_neg hb]; exact h

theorem seqLoop_mono' {e s : Nat} {k j b r} (hk : k ≤ j) (h : seqLoop e s k b = some r) :
    seqLoop e s j b = some r := by
  induction hk with
  | refl => exact h
  | step _ ih => exact seqLoop_mono _ _ _ ih

theorem seqLoop_unique {e s : Nat} {k j b r q} (h : seqLoop e s k b = some r) (h' : seqLoop e s j b = some q) :
    r = q := by
  have h1 := seqLoop_mono' (Nat.le_max_left k j) h
  have h2 := seqLoop_mono' (Nat.le_max_right k j) h'
  rw [h1] at h2
  exact Option.some.inj h2

/-- If what the loop ends with is ascending, it hasn't wrapped around. -/
theorem seqLoop_ascending {e s : Nat} (hs : s < max64) : ∀ k b r, b < max64 → seqLoop e s k b = some r →
    r.Pairwise (· < ·) → ∃ n, e ≤ b + n * s ∧ b + n * s < max64 := by
  intro k
  induction k with
  | zero => intro b r _ h; cases h
  | succ k ih =>
    intro b r hbm h ha
    rw [seqLoop] at h
    split at h
    · rename_i hb
      cases h' : seqLoop e s k ((b + s) % max64) with
      | none => rw [h'] at h; cases h
      | some q =>
        rw [h'] at h
        cases h
        obtain ⟨hlt, hq⟩ := List.pairwise_cons.1 ha
        have hm : (b + s) % max64 < max64 := Nat.mod_lt _ (by decide)
        by_cases hw : b + s < max64
        · rw [Nat.mod_eq_of_lt hw] at h'
          obtain ⟨n, h1, h2⟩ := ih _ _ hw h' hq
          refine ⟨n + 1, ?_⟩
          rw [Nat.succ_mul]
          omega
        · have hmod : (b + s) % max64 = b + s - max64 := by
            rw [Nat.mod_eq_sub_mod (by omega), Nat.mod_eq_of_lt (by omega)]
          rw [hmod] at h'
          cases k with
          | zero => cases h'
          | succ k =>
            rw [seqLoop, if_pos (by omega)] at h'
            cases h'' : seqLoop e s k ((b + s - max64 + s) % max64) with
            | none => rw [h''] at h'; cases h'
            | some q' =>
              rw [h''] at h'
              cases h'
              have := hlt (b + s - max64) (by simp)
              omega
    · rename_i hb
      exact ⟨0, by omega, by omega⟩

variable {α : Type} {le : α → α → Bool}

theorem uniqueFrom_sub {eqv : α → α → Bool} : ∀ (l : List α) (a x : α), x ∈ uniqueFrom eqv a l → x ∈ a :: l := by
  intro l
  induction l with
  | nil => intro a x h; exact h
  | cons b l ih =>
    intro a x h
    rw [uniqueFrom] at h
    split at h
    · rcases List.mem_cons.1 (ih a x h) with h | h
      · exact h ▸ by simp
      · simp [h]
    · rcases List.mem_cons.1 h with h | h
      · simp [h]
      · exact List.mem_cons_of_mem _ (ih b x h)

theorem uniqueFrom_spec (ho : Ordering le) : ∀ (l : List α) (a : α),
    (a :: l).Pairwise (fun x y => le x y = true) →
    (uniqueFrom (fun x y => le x y && le y x) a l).Pairwise (fun x y => le x y = true ∧ le y x = false) ∧
    ∀ x ∈ a :: l, ∃ y ∈ uniqueFrom (fun x y => le x y && le y x) a l, le x y = true ∧ le y x = true := by
  have hr : ∀ x, le x x = true := fun x => (ho.total x x).elim id id
  intro l
  induction l with
  | nil =>
    intro a _
    refine ⟨by simp [uniqueFrom], fun x hx => ⟨x, by simpa [uniqueFrom] using hx, hr x, hr x⟩⟩
  | cons b l ih =>
    intro a hp
    obtain ⟨h1, h2⟩ := List.pairwise_cons.1 hp
    obtain ⟨h3, h4⟩ := List.pairwise_cons.1 h2
    rw [uniqueFrom]
    split
    · rename_i he
      rw [Bool.and_eq_true] at he
      obtain ⟨i1, i2⟩ := ih a (List.pairwise_cons.2 ⟨fun x hx => h1 x (List.mem_cons_of_mem _ hx), h4⟩)
      refine ⟨i1, fun x hx => ?_⟩
      rcases List.mem_cons.1 hx with rfl | hx
      · exact i2 x (by simp)
      · rcases List.mem_cons.1 hx with rfl | hx
        · obtain ⟨y, hy, e1, e2⟩ := i2 a (by simp)
          exact ⟨y, hy, ho.trans _ _ _ he.2 e1, ho.trans _ _ _ e2 he.1⟩
        · exact i2 x (List.mem_cons_of_mem _ hx)
    · rename_i he
      have hba : le b a = false := by
        cases h : le b a with
        | false => rfl
        | true => exact absurd (by rw [h1 b (by simp), h]; rfl) he
      obtain ⟨i1, i2⟩ := ih b h2
      refine ⟨List.pairwise_cons.2 ⟨fun x hx => ?_, i1⟩, fun x hx => ?_⟩
      · have hx' := uniqueFrom_sub l b x hx
        refine ⟨h1 x hx', ?_⟩
        cases h : le x a with
        | false => rfl
        | true =>
          have hbx : le b x = true := by
            rcases List.mem_cons.1 hx' with rfl | h
            · exact hr _
            · exact h3 x h
          rw [ho.trans _ _ _ hbx h] at hba
          cases hba
      · rcases List.mem_cons.1 hx with rfl | hx
        · exact ⟨x, by simp, hr x, hr x⟩
        · obtain ⟨y, hy, e⟩ := i2 x hx
          exact ⟨y, List.mem_cons_of_mem _ hy, e⟩

theorem sortFlags_spec : ∀ fs : List String,
    (∀ f ∈ fs, f = "dedup") → sortFlags fs = .ok (fs.contains "dedup") := by
  intro fs
  induction fs with
  | nil => intro _; rfl
  | cons f fs ih =>
    intro h
    have hf := h f (by simp)
    subst hf
    rw [sortFlags, if_pos rfl, ih (fun g hg => h g (List.mem_cons_of_mem _ hg))]
    simp

theorem sortFlags_error : ∀ fs : List String, (∃ f ∈ fs, f ≠ "dedup") → ∃ e, sortFlags fs = .error e := by
  intro fs
  induction fs with
  | nil => rintro ⟨_, h, _⟩; cases h
  | cons f fs ih =>
    rintro ⟨g, h1, h2⟩
    rw [sortFlags]
    split
    · rename_i hf
      rcases List.mem_cons.1 h1 with rfl | h1
      · exact absurd hf h2
      · obtain ⟨e, he⟩ := ih ⟨g, h1, h2⟩
        rw [he]; exact ⟨e, rfl⟩
    · exact ⟨_, rfl⟩

theorem stringFlags_spec : ∀ fs : List String, (∀ f ∈ fs, f = "icase" ∨ f = "dedup") →
    stringFlags fs = .ok (fs.contains "icase", fs.contains "dedup") := by
  intro fs
  induction fs with
  | nil => intro _; rfl
  | cons f fs ih =>
    intro h
    have ih := ih (fun g hg => h g (List.mem_cons_of_mem _ hg))
    rcases h f (by simp) with rfl | rfl
    · rw [stringFlags, if_pos rfl, ih]; simp
    · rw [stringFlags, if_neg (by decide), if_pos rfl, ih]; simp

theorem stringFlags_error : ∀ fs : List String, (∃ f ∈ fs, f ≠ "icase" ∧ f ≠ "dedup") →
    ∃ e, stringFlags fs = .error e := by
  intro fs
  induction fs with
  | nil => rintro ⟨_, h, _⟩; cases h
  | cons f fs ih =>
    rintro ⟨g, h1, h2⟩
    rw [stringFlags]
    rcases List.mem_cons.1 h1 with rfl | h1
    · rw [if_neg h2.1, if_neg h2.2]; exact ⟨_, rfl⟩
    · obtain ⟨e, he⟩ := ih ⟨g, h1, h2⟩
      rw [he]
      split
      · exact ⟨e, rfl⟩
      · split <;> exact ⟨_, rfl⟩

end Verif.ListFn
