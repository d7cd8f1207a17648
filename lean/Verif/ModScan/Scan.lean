import Verif.ModScan.Lemmas

/-! # Modules of a translation unit: finding declarations -/

namespace Verif.ModScan

open CcLex (Tok Kind Str)

theorem lead_head {c : Compiler} {w : Word} {ex : Bool} {l : List Tok} (h : Lead c w ex l) :
    ∃ t l', l = t :: l' ∧ t.kind = .identifier ∧ t.first = true := by
  cases h with
  | plain h1 h2 => exact ⟨_, _, rfl, h1, h2⟩
  | exported h1 h2 => exact ⟨_, _, rfl, h1, h2⟩

theorem begins_head {c : Compiler} {t : Tok} {ts : List Tok} (h : Begins c (t :: ts)) :
    t.kind = .identifier ∧ t.first = true := by
  obtain ⟨w, ex, l, u, r, h1, h2, _⟩ := h
  obtain ⟨t', l', rfl, h3, h4⟩ := lead_head h2
  simp only [List.cons_append, List.cons.injEq] at h1
  obtain ⟨rfl, _⟩ := h1
  exact ⟨h3, h4⟩

theorem lead_unique {c : Compiler} {w w' : Word} {ex ex' : Bool} {l l' x x' : List Tok}
    (h : Lead c w ex l) (h' : Lead c w' ex' l') (he : l ++ x = l' ++ x') :
    w = w' ∧ ex = ex' ∧ l = l' ∧ x = x' := by
  cases h with
  | plain h1 h2 h3 =>
    cases h' with
    | plain h1' h2' h3' =>
      simp only [List.cons_append, List.nil_append, List.cons.injEq] at he
      obtain ⟨rfl, rfl⟩ := he
      exact ⟨spelled_word h3 h3', rfl, rfl, rfl⟩
    | exported h1' h2' h3' =>
      simp only [List.cons_append, List.nil_append, List.cons.injEq] at he
      obtain ⟨rfl, rfl⟩ := he
      rw [h3'] at h3
      exact absurd h3 (spelled_not_export c w)
  | exported h1 h2 h3 h4 h5 h6 =>
    cases h' with
    | plain h1' h2' h3' =>
      simp only [List.cons_append, List.nil_append, List.cons.injEq] at he
      obtain ⟨rfl, rfl⟩ := he
      rw [h3] at h3'
      exact absurd h3' (spelled_not_export c w')
    | exported h1' h2' h3' h4' h5' h6' =>
      simp only [List.cons_append, List.nil_append, List.cons.injEq] at he
      obtain ⟨rfl, rfl, rfl⟩ := he
      exact ⟨spelled_word h6 h6', rfl, rfl, rfl⟩

theorem tail_head {w : Word} {ex : Bool} {l : List Tok} {d : Decl} (h : Tail w ex l d) :
    ∃ u l', l = u :: l' ∧ u.first = false ∧ w.Followed u.kind := by
  cases h with
  | marker h1 h2 => exact ⟨_, _, rfl, h2, Or.inl h1⟩
  | module h1 h2 =>
    obtain ⟨t, l', rfl, h3, h4⟩ := dotted_kind h1
    exact ⟨t, _, rfl, h4, Or.inr h3⟩
  | part h1 =>
    obtain ⟨t, l', rfl, h3, h4⟩ := dotted_kind h1
    exact ⟨t, _, rfl, h4, Or.inr h3⟩
  | «import» h1 h2 =>
    obtain ⟨t, l', rfl, h3, h4⟩ := dotted_kind h1
    exact ⟨t, _, rfl, h4, Or.inr (Or.inr (Or.inr h3))⟩
  | importPart h1 h2 => exact ⟨_, _, rfl, h2, Or.inr (Or.inl h1)⟩
  | quoted h1 h2 => exact ⟨_, _, rfl, h2, Or.inr (Or.inr (Or.inl h1))⟩
  | angled h1 h2 => exact ⟨_, _, rfl, h2, Or.inl h1⟩

theorem declares_begins {c : Compiler} {l r : List Tok} {d : Decl} (h : Declares c l d) :
    Begins c (l ++ r) := by
  obtain ⟨w, ex, a, b, rfl, h1, h2⟩ := (declares_iff c l d).1 h
  obtain ⟨u, l', rfl, h3, h4⟩ := tail_head h2
  exact ⟨w, ex, a, u, l' ++ r, by simp, h1, h3, h4⟩

theorem begins_cons {c : Compiler} {t : Tok} {ts : List Tok} (h : Begins c (t :: ts)) :
    ∃ w u r, u.first = false ∧ w.Followed u.kind ∧
      ((ts = u :: r ∧ Spelled c w t.value) ∨
        ∃ k, ts = k :: u :: r ∧ t.value = "export".toList ∧ k.kind = .identifier ∧
          k.first = false ∧ Spelled c w k.value) := by
  obtain ⟨w, ex, l, u, r, h1, h2, h3, h4⟩ := h
  cases h2 with
  | plain h5 h6 h7 =>
    simp only [List.cons_append, List.nil_append, List.cons.injEq] at h1
    obtain ⟨rfl, rfl⟩ := h1
    exact ⟨w, u, r, h3, h4, Or.inl ⟨rfl, h7⟩⟩
  | exported h5 h6 h7 h8 h9 h10 =>
    simp only [List.cons_append, List.nil_append, List.cons.injEq] at h1
    obtain ⟨rfl, rfl⟩ := h1
    exact ⟨w, u, r, h3, h4, Or.inr ⟨_, rfl, h7, h8, h9, h10⟩⟩

/-- A keyword that is not followed by the right thing. -/
theorem keyword_skip (c : Compiler) (st : St) (ex : Bool) (t : Tok) (ts : List Tok)
    (h : ∀ w u r, Spelled c w t.value → ts = u :: r → u.first = false → ¬ w.Followed u.kind) :
    keyword c st ex t ts = some (st, ts) := by
  unfold keyword
  by_cases hm : isModule c t.value = true
  · rw [if_pos hm]
    cases ts with
    | nil => rfl
    | cons u us =>
      simp only
      rw [if_neg]
      rintro ⟨h1, h2⟩
      exact h .module u us ((isModule_iff _ _).1 hm) rfl h2 h1
  · rw [if_neg hm]
    by_cases hi : isImport c t.value = true
    · rw [if_pos hi]
      cases ts with
      | nil => rfl
      | cons u us =>
        simp only
        rw [if_neg]
        rintro ⟨h1, h2⟩
        exact h .import u us ((isImport_iff _ _).1 hi) rfl h2 h1
    · rw [if_neg hi]

theorem keyword_begins (c : Compiler) (st : St) (ex : Bool) (t : Tok) (u : Tok) (us : List Tok)
    {w : Word} (h : Spelled c w t.value) (hf : u.first = false) (hw : w.Followed u.kind)
    (st' : St) (r : List Tok) : keyword c st ex t (u :: us) = some (st', r) ↔
      ∃ l d, u :: us = l ++ r ∧ Tail w ex l d ∧ st.add d = some st' := by
  unfold keyword
  cases w with
  | module =>
    rw [if_pos ((isModule_iff _ _).2 h)]
    simp only
    rw [if_pos ⟨hw, hf⟩]
    exact parseModule_iff st ex (u :: us) st' r
  | «import» =>
    have hn : ¬ isModule c t.value = true := fun hm => by
      cases spelled_word h ((isModule_iff _ _).1 hm)
    rw [if_neg hn, if_pos ((isImport_iff _ _).2 h)]
    simp only
    rw [if_pos ⟨hw, hf⟩]
    refine parseImport_iff st ex (u :: us) ?_ st' r
    intro t ht
    simp only [List.head?_cons, Option.some.injEq] at ht
    subst ht; exact hf

/-- Tokens that do not begin anything. -/
def Plain (p : List Tok) : Prop := ∀ x ∈ p, x.kind = .identifier ∧ x.first = false

theorem atFirst_skip (c : Compiler) (st : St) (t : Tok) (ts : List Tok)
    (hk : t.kind = .identifier) (hf : t.first = true) (h : ¬ Begins c (t :: ts)) :
    ∃ p r, atFirst c st t ts = some (st, r) ∧ ts = p ++ r ∧ Plain p := by
  unfold atFirst
  by_cases he : t.value = "export".toList
  · rw [if_pos he]
    cases ts with
    | nil => exact ⟨[], [], rfl, rfl, by simp [Plain]⟩
    | cons u us =>
      simp only
      by_cases hu : u.kind ≠ .identifier ∨ u.first = true
      · rw [if_pos hu]
        exact ⟨[], u :: us, rfl, rfl, by simp [Plain]⟩
      · rw [if_neg hu]
        simp only [not_or] at hu
        have hu1 := Classical.not_not.1 hu.1
        have hu2 := bool_false hu.2
        rw [keyword_skip]
        · exact ⟨[u], us, rfl, rfl, by simp [Plain, hu1, hu2]⟩
        · rintro w v r hs rfl hv hw
          exact h ⟨w, true, [t, u], v, r, rfl, .exported hk hf he hu1 hu2 hs, hv, hw⟩
  · rw [if_neg he, keyword_skip]
    · exact ⟨[], ts, rfl, rfl, by simp [Plain]⟩
    · rintro w v r hs rfl hv hw
      exact h ⟨w, false, [t], v, r, rfl, .plain hk hf hs, hv, hw⟩

theorem atFirst_begins (c : Compiler) (st : St) (t : Tok) (ts : List Tok)
    (h : Begins c (t :: ts)) (st' : St) (r : List Tok) :
    atFirst c st t ts = some (st', r) ↔
      ∃ l d, t :: ts = l ++ r ∧ Declares c l d ∧ st.add d = some st' := by
  obtain ⟨hk, hf⟩ := begins_head h
  obtain ⟨w, u, us, h1, h2, ⟨rfl, h3⟩ | ⟨k, rfl, h3, h4, h5, h6⟩⟩ := begins_cons h
  · have hl : Lead c w false [t] := .plain hk hf h3
    have he : ¬ t.value = "export".toList := fun he => spelled_not_export c w (he ▸ h3)
    unfold atFirst
    rw [if_neg he, keyword_begins c st false t u us h3 h1 h2]
    constructor
    · rintro ⟨l, d, h4, h5, h6⟩
      exact ⟨t :: l, d, by rw [h4]; rfl,
        (declares_iff _ _ _).2 ⟨w, false, [t], l, rfl, hl, h5⟩, h6⟩
    · rintro ⟨l, d, h4, h5, h6⟩
      obtain ⟨w', ex', a, b, rfl, h7, h8⟩ := (declares_iff _ _ _).1 h5
      obtain ⟨rfl, rfl, rfl, h9⟩ := lead_unique hl h7
        (show [t] ++ (u :: us) = a ++ (b ++ r) by simpa using h4)
      exact ⟨b, d, h9, h8, h6⟩
  · have hl : Lead c w true [t, k] := .exported hk hf h3 h4 h5 h6
    unfold atFirst
    rw [if_pos h3]
    simp only
    rw [if_neg (by simp [h4, h5]), keyword_begins c st true k u us h6 h1 h2]
    constructor
    · rintro ⟨l, d, h7, h8, h9⟩
      exact ⟨t :: k :: l, d, by rw [h7]; rfl,
        (declares_iff _ _ _).2 ⟨w, true, [t, k], l, rfl, hl, h8⟩, h9⟩
    · rintro ⟨l, d, h7, h8, h9⟩
      obtain ⟨w', ex', a, b, rfl, h10, h11⟩ := (declares_iff _ _ _).1 h8
      obtain ⟨rfl, rfl, rfl, h12⟩ := lead_unique hl h10
        (show [t, k] ++ (u :: us) = a ++ (b ++ r) by simpa using h7)
      exact ⟨b, d, h12, h11, h9⟩

/-- What can be at the beginning. -/
theorem scan_cons {c : Compiler} {d : Nat} {t : Tok} {ts : List Tok} {ds : List Decl}
    (h : Scan c d (t :: ts) ds) :
    (t.kind = .lcbrace ∧ Scan c (d + 1) ts ds) ∨
      (t.kind = .rcbrace ∧ ∃ d', d = d' + 1 ∧ Scan c d' ts ds) ∨
      (t.kind = .rcbrace ∧ d = 0 ∧ ds = []) ∨
      (∃ l e r ds', d = 0 ∧ t :: ts = l ++ r ∧ ds = e :: ds' ∧ Declares c l e ∧ Scan c 0 r ds') ∨
      (t.kind ≠ .lcbrace ∧ t.kind ≠ .rcbrace ∧ ¬ (d = 0 ∧ Begins c (t :: ts)) ∧ Scan c d ts ds) := by
  generalize hx : t :: ts = x at h
  cases h with
  | nil => cases hx
  | enter h1 h2 => cases hx; exact Or.inl ⟨h1, h2⟩
  | leave h1 h2 => cases hx; exact Or.inr (Or.inl ⟨h1, _, rfl, h2⟩)
  | stray h1 => cases hx; exact Or.inr (Or.inr (Or.inl ⟨h1, rfl, rfl⟩))
  | decl h1 h2 => exact Or.inr (Or.inr (Or.inr (Or.inl ⟨_, _, _, _, rfl, rfl, rfl, h1, h2⟩)))
  | other h1 h2 h3 h4 =>
    cases hx
    exact Or.inr (Or.inr (Or.inr (Or.inr ⟨h1, h2, h3, h4⟩)))

theorem scan_plain (c : Compiler) (d : Nat) (p r : List Tok) (ds : List Decl) (hp : Plain p) :
    Scan c d (p ++ r) ds ↔ Scan c d r ds := by
  induction p with
  | nil => exact Iff.rfl
  | cons x p ih =>
    obtain ⟨h1, h2⟩ := List.forall_mem_cons.1 hp
    have hb : ¬ Begins c (x :: (p ++ r)) := fun h => by
      have := (begins_head h).2
      rw [h1.2] at this; cases this
    constructor
    · intro h
      rcases scan_cons h with h | h | h | ⟨l, e, r', ds', _, h3, _, h4, _⟩ | h
      · rw [h1.1] at h; cases h.1
      · rw [h1.1] at h; cases h.1
      · rw [h1.1] at h; cases h.1
      · refine absurd (declares_begins (r := r') h4) ?_
        rw [← h3]; exact hb
      · exact (ih h2).1 h.2.2.2
    · intro h
      exact .other (by simp [h1.1]) (by simp [h1.1]) (fun h => hb h.2) ((ih h2).2 h)

/-- The effect of declarations. -/
def St.adds (st : St) : List Decl → Option St
  | [] => some st
  | d :: ds =>
    match st.add d with
    | none => none
    | some st => st.adds ds

theorem declares_ne {c : Compiler} {l : List Tok} {d : Decl} (h : Declares c l d) :
    0 < l.length := by
  obtain ⟨w, ex, a, b, rfl, h1, _⟩ := (declares_iff c l d).1 h
  obtain ⟨t, l', rfl, _⟩ := lead_head h1
  simp

theorem loop_iff (c : Compiler) (n : Nat) : ∀ bb st ts st', ts.length < n →
    (loop c n bb st ts = some st' ↔ ∃ ds, Scan c bb ts ds ∧ st.adds ds = some st') := by
  induction n with
  | zero => intro bb st ts st' h; omega
  | succ n ih =>
    intro bb st ts st' hn
    cases ts with
    | nil =>
      simp only [loop]
      constructor
      · intro h; exact ⟨[], .nil, h⟩
      · rintro ⟨ds, h1, h2⟩
        generalize hx : ([] : List Tok) = x at h1
        cases h1 with
        | nil => exact h2
        | decl h3 =>
          have := declares_ne h3
          have := congrArg List.length hx
          simp only [List.length_append, List.length_nil] at this
          omega
        | enter => cases hx
        | leave => cases hx
        | stray => cases hx
        | other => cases hx
    | cons t ts =>
      simp only [List.length_cons] at hn
      have nb : t.kind ≠ .identifier ∨ t.first = false → ¬ Begins c (t :: ts) := by
        rintro h hb
        obtain ⟨h1, h2⟩ := begins_head hb
        rcases h with h | h
        · exact h h1
        · rw [h2] at h; cases h
      have nd : ∀ l e r, ¬ Begins c (t :: ts) → t :: ts = l ++ r → ¬ Declares c l e := by
        intro l e r h h1 h2
        rw [h1] at h
        exact h (declares_begins h2)
      simp only [loop]
      by_cases hl : t.kind = .lcbrace
      · rw [if_pos hl, ih _ _ _ _ (by omega)]
        constructor
        · rintro ⟨ds, h1, h2⟩; exact ⟨ds, .enter hl h1, h2⟩
        · rintro ⟨ds, h1, h2⟩
          rcases scan_cons h1 with h | h | h | ⟨l, e, r, ds', _, h3, _, h4, _⟩ | h
          · exact ⟨ds, h.2, h2⟩
          · rw [hl] at h; cases h.1
          · rw [hl] at h; cases h.1
          · exact absurd h4 (nd l e r (nb (Or.inl (by simp [hl]))) h3)
          · exact absurd hl h.1
      · rw [if_neg hl]
        by_cases hr : t.kind = .rcbrace
        · rw [if_pos hr]
          by_cases hb : bb = 0
          · rw [if_pos hb]
            subst hb
            constructor
            · intro h; exact ⟨[], .stray hr, h⟩
            · rintro ⟨ds, h1, h2⟩
              rcases scan_cons h1 with h | h | h | ⟨l, e, r, ds', _, h3, _, h4, _⟩ | h
              · exact absurd h.1 hl
              · obtain ⟨_, d', h, _⟩ := h; cases h
              · rw [h.2.2] at h2; exact h2
              · exact absurd h4 (nd l e r (nb (Or.inl (by simp [hr]))) h3)
              · exact absurd hr h.2.1
          · rw [if_neg hb]
            obtain ⟨b, rfl⟩ : ∃ b, bb = b + 1 := ⟨bb - 1, by omega⟩
            rw [Nat.add_sub_cancel, ih _ _ _ _ (by omega)]
            constructor
            · rintro ⟨ds, h1, h2⟩; exact ⟨ds, .leave hr h1, h2⟩
            · rintro ⟨ds, h1, h2⟩
              rcases scan_cons h1 with h | h | h | ⟨l, e, r, ds', h, _⟩ | h
              · exact absurd h.1 hl
              · obtain ⟨_, d', h, h3⟩ := h
                cases h; exact ⟨ds, h3, h2⟩
              · cases h.2.1
              · cases h
              · exact absurd hr h.2.1
        · rw [if_neg hr]
          by_cases hk : t.kind = .identifier ∧ bb = 0 ∧ t.first = true
          · rw [if_pos hk]
            obtain ⟨hk, rfl, hf⟩ := hk
            by_cases hb : Begins c (t :: ts)
            · have hat := atFirst_begins c st t ts hb
              constructor
              · intro h
                cases ha : atFirst c st t ts with
                | none => simp [ha] at h
                | some x =>
                  obtain ⟨st1, r⟩ := x
                  simp only [ha] at h
                  obtain ⟨l, d, h1, h2, h3⟩ := (hat st1 r).1 ha
                  have hlen := congrArg List.length h1
                  have := declares_ne h2
                  simp only [List.length_cons, List.length_append] at hlen
                  obtain ⟨ds, h4, h5⟩ := (ih 0 st1 r st' (by omega)).1 h
                  refine ⟨d :: ds, ?_, ?_⟩
                  · rw [h1]; exact .decl h2 h4
                  · simp only [St.adds, h3]; exact h5
              · rintro ⟨ds, h1, h2⟩
                rcases scan_cons h1 with h | h | h | ⟨l, e, r, ds', _, h3, rfl, h4, h5⟩ | h
                · exact absurd h.1 hl
                · exact absurd h.1 hr
                · exact absurd h.1 hr
                · simp only [St.adds] at h2
                  cases ha : st.add e with
                  | none => simp [ha] at h2
                  | some st1 =>
                    simp only [ha] at h2
                    rw [(hat st1 r).2 ⟨l, e, h3, h4, ha⟩]
                    have hlen := congrArg List.length h3
                    have := declares_ne h4
                    simp only [List.length_cons, List.length_append] at hlen
                    exact (ih 0 st1 r st' (by omega)).2 ⟨ds', h5, h2⟩
                · exact absurd ⟨rfl, hb⟩ h.2.2.1
            · obtain ⟨p, r, ha, hts, hp⟩ := atFirst_skip c st t ts hk hf hb
              rw [ha]
              simp only
              have hlen := congrArg List.length hts
              simp only [List.length_append] at hlen
              rw [ih _ _ _ _ (by omega)]
              constructor
              · rintro ⟨ds, h1, h2⟩
                refine ⟨ds, .other hl hr (fun h => hb h.2) ?_, h2⟩
                rw [hts]
                exact (scan_plain c 0 p r ds hp).2 h1
              · rintro ⟨ds, h1, h2⟩
                rcases scan_cons h1 with h | h | h | ⟨l, e, r', ds', _, h3, _, h4, _⟩ | h
                · exact absurd h.1 hl
                · exact absurd h.1 hr
                · exact absurd h.1 hr
                · exact absurd h4 (nd l e r' hb h3)
                · refine ⟨ds, ?_, h2⟩
                  have := h.2.2.2
                  rw [hts] at this
                  exact (scan_plain c 0 p r ds hp).1 this
          · rw [if_neg hk, ih _ _ _ _ (by omega)]
            have hb : ¬ (bb = 0 ∧ Begins c (t :: ts)) := by
              rintro ⟨h1, h2⟩
              obtain ⟨h3, h4⟩ := begins_head h2
              exact hk ⟨h3, h1, h4⟩
            constructor
            · rintro ⟨ds, h1, h2⟩; exact ⟨ds, .other hl hr hb h1, h2⟩
            · rintro ⟨ds, h1, h2⟩
              rcases scan_cons h1 with h | h | h | ⟨l, e, r, ds', h0, h3, _, h4, _⟩ | h
              · exact absurd h.1 hl
              · exact absurd h.1 hr
              · exact absurd h.1 hr
              · exact absurd h4 (nd l e r (fun h => hb ⟨h0, h⟩) h3)
              · exact ⟨ds, h.2.2.2, h2⟩

end Verif.ModScan
