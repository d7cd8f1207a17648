import Verif.Make.Step

namespace Verif.Make

theorem not_found {c : Char} (h : found c = false) : c ∉ escapable ∧ c ≠ '\x00' := by
  constructor
  · intro hc; rw [found_iff.2 (Or.inl hc)] at h; cases h
  · intro hc; rw [found_iff.2 (Or.inr hc)] at h; cases h

theorem scan_inv (n : Nat) : ∀ l : List Char, l.length ≤ n → '\x00' ∉ l →
    ∃ w, l = w ++ (scan l).2 ∧ Written w (scan l).1 ∧ After (scan l).2 := by
  induction n with
  | zero =>
    intro l hn hz
    have : l = [] := List.eq_nil_of_length_eq_zero (by omega)
    subst this
    exact ⟨[], rfl, .nil, Or.inl rfl⟩
  | succ n ih =>
    intro l hn hz
    cases l with
    | nil => exact ⟨[], rfl, .nil, Or.inl rfl⟩
    | cons c l =>
      cases l with
      | nil =>
        rw [scan]
        by_cases h : c = ' ' ∨ c = ':' ∨ c = '\\'
        · rw [if_pos h]
          refine ⟨[], rfl, .nil, ?_⟩
          rcases h with rfl | rfl | rfl
          · exact Or.inr (Or.inr (Or.inl rfl))
          · exact Or.inr (Or.inr (Or.inr rfl))
          · exact Or.inr (Or.inl rfl)
        · rw [if_neg h]
          by_cases hd : c = '$'
          · subst hd
            exact ⟨['$'], rfl, .dollar (by simp) .nil, Or.inl rfl⟩
          · exact ⟨[c], rfl, .plain (by simp; simp at h; exact ⟨h.1, h.2.1, h.2.2, hd⟩) .nil, Or.inl rfl⟩
      | cons d l =>
        simp only [List.length_cons] at hn
        have hz1 : '\x00' ∉ d :: l := fun h => hz (List.mem_cons_of_mem _ h)
        have hz2 : '\x00' ∉ l := fun h => hz1 (List.mem_cons_of_mem _ h)
        have hdz : d ≠ '\x00' := fun h => hz1 (h ▸ List.mem_cons_self)
        obtain ⟨w1, e1, hw1, ha1⟩ := ih (d :: l) (by simp; omega) hz1
        obtain ⟨w2, e2, hw2, ha2⟩ := ih l (by omega) hz2
        rw [scan]
        by_cases h1 : c = ' ' ∨ c = ':'
        · rw [if_pos h1]
          refine ⟨[], rfl, .nil, ?_⟩
          rcases h1 with rfl | rfl
          · exact Or.inr (Or.inr (Or.inl rfl))
          · exact Or.inr (Or.inr (Or.inr rfl))
        · rw [if_neg h1]
          by_cases h2 : c = '\\'
          · subst h2
            rw [if_pos rfl]
            by_cases h3 : found d = true
            · rw [if_pos h3]
              refine ⟨'\\' :: d :: w2, by simp; exact e2, .escaped ?_ hw2, ha2⟩
              rcases found_iff.1 h3 with h | h
              · exact h
              · exact absurd h hdz
            · rw [if_neg h3]
              obtain ⟨h4, h5⟩ := not_found (by simpa using h3)
              have hw1n : ∃ w, w1 = d :: w := by
                cases w1 with
                | nil =>
                  simp at e1
                  rw [← e1] at ha1
                  rcases ha1 with h | h | h | h
                  · cases h
                  · simp at h; exact absurd (h.1 ▸ by decide) h4
                  · simp at h; exact absurd (h ▸ by decide) h4
                  · simp at h; exact absurd (h ▸ by decide) h4
                | cons a w => simp at e1; exact ⟨w, by rw [e1.1]⟩
              obtain ⟨w, rfl⟩ := hw1n
              exact ⟨'\\' :: d :: w, by simp at e1 ⊢; exact e1, .backslash h4 h5 hw1, ha1⟩
          · rw [if_neg h2]
            by_cases h3 : c = '$'
            · subst h3
              rw [if_pos rfl]
              by_cases h4 : d = '$'
              · subst h4
                rw [if_pos rfl]
                exact ⟨'$' :: '$' :: w2, by simp; exact e2, .dollars hw2, ha2⟩
              · rw [if_neg h4]
                refine ⟨'$' :: w1, by simp; exact e1, .dollar ?_ hw1, ha1⟩
                intro h
                cases w1 with
                | nil => cases h
                | cons a w => simp at h e1; exact h4 (e1.1.trans h)
            · rw [if_neg h3]
              simp at h1
              exact ⟨c :: w1, by simp; exact e1, .plain (by simp; exact ⟨h1.1, h1.2, h2, h3⟩) hw1, ha1⟩

theorem skip_inv (l : List Char) : ∃ j, l = List.replicate j ' ' ++ skip l ∧ (skip l).head? ≠ some ' ' := by
  induction l with
  | nil => exact ⟨0, rfl, by simp [skip]⟩
  | cons c l ih =>
    rw [skip]
    by_cases h : c = ' '
    · subst h
      rw [if_pos rfl]
      obtain ⟨j, e, hh⟩ := ih
      exact ⟨j + 1, by rw [List.replicate_succ, List.cons_append, ← e], hh⟩
    · rw [if_neg h]
      exact ⟨0, rfl, by simp [h]⟩

theorem replicate_add' (j k : Nat) : List.replicate (j + k) ' ' =
    List.replicate j ' ' ++ List.replicate k ' ' := by
  simp

theorem written_nil {w : List Char} (h : Written w []) : w = [] := by cases h; rfl

theorem lowNext_eq (l : List Char) : lowNext l =
    ((scan (skip l)).1, (leave (skip (scan (skip l)).2)).1, (leave (skip (scan (skip l)).2)).2) := by
  unfold lowNext leave
  simp only []
  cases h : skip (scan (skip l)).2 with
  | nil => rfl
  | cons c y =>
    cases y with
    | nil => by_cases hc : c = '\\' <;> simp [hc]
    | cons d y => simp

theorem lowNext_inv {l r y : List Char} {e : Bool} (hz : '\x00' ∉ l) (h : lowNext l = (r, e, y)) :
    ∃ j w k y0, l = List.replicate j ' ' ++ (w ++ List.replicate k ' ' ++ y0) ∧ Written w r ∧
      y0.head? ≠ some ' ' ∧ leave y0 = (e, y) ∧ ((k = 0 ∨ r = []) → After y0) := by
  rw [lowNext_eq] at h
  obtain ⟨j, e1, h1⟩ := skip_inv l
  have hz1 : '\x00' ∉ skip l := fun hh => hz (by rw [e1]; exact List.mem_append_right _ hh)
  obtain ⟨w, e2, hw, ha⟩ := scan_inv _ (skip l) (Nat.le_refl _) hz1
  obtain ⟨k, e3, h3⟩ := skip_inv (scan (skip l)).2
  simp only [Prod.mk.injEq] at h
  obtain ⟨hr, he, hy⟩ := h
  rw [hr] at hw
  refine ⟨j, w, k, skip (scan (skip l)).2, ?_, hw, h3, by rw [← he, ← hy], ?_⟩
  · rw [List.append_assoc, ← e3, ← e2]; exact e1
  · intro hk
    rcases hk with hk | hk
    · subst hk; rw [List.replicate_zero, List.nil_append] at e3; rw [← e3]; exact ha
    · subst hk
      have := written_nil hw
      subst this
      rw [List.nil_append] at e2
      have : (scan (skip l)).2.head? ≠ some ' ' := by rw [← e2]; exact h1
      rw [skip_of_head this]; exact ha

/-- What `next` does, by cases. -/
theorem next_inv {s s' : St} {t : Ty} {l r l' : List Char} (h : next s l = .ok (s', t, r, l')) :
    s ≠ .fin ∧ t = (if s = .prereqs then .prereq else .target) ∧
    ∃ e y, lowNext l = (r, e, y) ∧
      ((e = true ∧ ((s = .begin ∧ r = [] ∧ s' = .begin) ∨ (s = .prereqs ∧ s' = .fin)) ∧ l' = y ∧ y.head? ≠ some ':') ∨
       (e = false ∧ y.head? ≠ some ':' ∧ l' = y ∧ s' = if s = .begin ∧ r ≠ [] then .targets else s) ∨
       (y = ':' :: l' ∧ (s = .targets ∨ (s = .begin ∧ r ≠ [])) ∧ s' = (if l' = [] then .fin else .prereqs))) := by
  unfold next at h
  by_cases hs : s = .fin
  · rw [if_pos hs] at h; cases h
  rw [if_neg hs] at h
  rw [lowNext_eq] at h
  have hle : ∀ y0 : List Char, (leave y0).1 = true → (leave y0).2 = [] := by
    intro y0 h
    by_cases h1 : y0 = []
    · simp [leave, h1]
    · by_cases h2 : y0 = ['\\'] <;> simp [leave, h1, h2] at h
  rw [lowNext_eq]
  generalize hr : (scan (skip l)).1 = r0 at h
  generalize hy : (leave (skip (scan (skip l)).2)) = ey at h
  have hle := hle (skip (scan (skip l)).2)
  rw [hy] at hle
  obtain ⟨e, y⟩ := ey
  simp only [] at h hle
  cases e with
  | true =>
    have := hle rfl
    subst this
    simp only [if_true] at h
    by_cases hb : s = .begin ∧ r0 = []
    · rw [if_pos hb] at h
      simp at h
      obtain ⟨rfl, rfl, rfl, rfl⟩ := h
      refine ⟨hs, rfl, true, [], rfl, Or.inl ⟨rfl, Or.inl ⟨hb.1, hb.2, hb.1⟩, rfl, by simp⟩⟩
    · rw [if_neg hb] at h
      by_cases hp : s ≠ .prereqs
      · rw [if_pos hp] at h; cases h
      · rw [if_neg hp] at h
        simp at h
        obtain ⟨rfl, rfl, rfl, rfl⟩ := h
        refine ⟨hs, rfl, true, [], rfl, Or.inl ⟨rfl, Or.inr ⟨by simpa using hp, rfl⟩, rfl, by simp⟩⟩
  | false =>
    simp only [Bool.false_eq_true, if_false] at h
    by_cases hb : s = .begin ∧ r0 ≠ []
    · rw [if_pos hb] at h
      simp only [] at h
      split at h
      · rename_i l1
        simp at h
        obtain ⟨rfl, rfl, rfl, rfl⟩ := h
        exact ⟨hs, rfl, false, _, rfl, Or.inr (Or.inr ⟨rfl, Or.inr hb, rfl⟩)⟩
      · rename_i hne
        simp at h
        obtain ⟨rfl, rfl, rfl, rfl⟩ := h
        refine ⟨hs, rfl, false, y, rfl, Or.inr (Or.inl ⟨rfl, ?_, rfl, by rw [if_pos hb]⟩)⟩
        intro hh
        cases y with
        | nil => cases hh
        | cons c y => simp at hh; exact hne y (by rw [hh])
    · rw [if_neg hb] at h
      simp only [] at h
      split at h
      · rename_i l1
        cases s with
        | begin => simp at h
        | prereqs => simp at h
        | fin => exact absurd rfl hs
        | targets =>
          simp at h
          obtain ⟨rfl, rfl, rfl, rfl⟩ := h
          exact ⟨hs, rfl, false, _, rfl, Or.inr (Or.inr ⟨rfl, Or.inl rfl, rfl⟩)⟩
      · rename_i hne
        simp at h
        obtain ⟨rfl, rfl, rfl, rfl⟩ := h
        refine ⟨hs, rfl, false, y, rfl, Or.inr (Or.inl ⟨rfl, ?_, rfl, by rw [if_neg hb]⟩)⟩
        intro hh
        cases y with
        | nil => cases hh
        | cons c y => simp at hh; exact hne y (by rw [hh])

/-- The line is a layout of items allowed in the state. -/
def LineOf (s : St) (l : List Char) (s' : St) (out : List (Ty × List Char)) : Prop :=
  ∃ j is c, l = List.replicate j ' ' ++ (body is ++ ctext c) ∧ Wr is ∧ Separated is ∧
    Okay s (is.map (·.1)) ∧ (c = false → stAfter s (is.map (·.1)) = .prereqs ∨ (s = .begin ∧ is = [])) ∧
    s' = lineEnd (stAfter s (is.map (·.1))) c ∧ out = outs s (is.map (·.1))

theorem leave_cases {y0 y : List Char} {e : Bool} (h : leave y0 = (e, y)) :
    (e = true ∧ y0 = [] ∧ y = []) ∨ (e = false ∧ y0 = ['\\'] ∧ y = []) ∨
      (e = false ∧ y0 = y ∧ y ≠ [] ∧ y ≠ ['\\']) := by
  unfold leave at h
  split at h
  · simp at h; simp_all
  · split at h
    · simp at h; simp_all
    · simp at h; simp_all

theorem wr_nil : Wr [] := fun _ _ _ h => by simp at h

theorem wr_cons_path {w p : List Char} {k : Nat} {is : List (Item × Nat)} (h : Written w p) (hp : p ≠ [])
    (hi : Wr is) : Wr ((.path w p, k) :: is) := by
  intro w' p' k' hm
  rcases List.mem_cons.1 hm with hm | hm
  · simp at hm; obtain ⟨⟨rfl, rfl⟩, rfl⟩ := hm; exact ⟨h, hp⟩
  · exact hi _ _ _ hm

theorem wr_cons_colon {k : Nat} {is : List (Item × Nat)} (hi : Wr is) : Wr ((.colon, k) :: is) := by
  intro w' p' k' hm
  rcases List.mem_cons.1 hm with hm | hm
  · simp at hm
  · exact hi _ _ _ hm

theorem replicate_append_inv {j : Nat} {x : List Char} {c : Char} {y : List Char}
    (h : c :: y = List.replicate j ' ' ++ x) (hc : c ≠ ' ') : j = 0 := by
  cases j with
  | zero => rfl
  | succ j => rw [List.replicate_succ, List.cons_append] at h; simp at h; exact absurd h.1 hc

theorem parse_inv (fuel : Nat) : ∀ (s s' : St) (l : List Char) (out : List (Ty × List Char)),
    '\x00' ∉ l → parseLine fuel s l = .ok (s', out) → LineOf s l s' out := by
  induction fuel with
  | zero => intro s s' l out _ h; cases h
  | succ fuel ih =>
    intro s s' l out hz h
    rw [parseLine] at h
    cases hn : next s l with
    | error b => rw [hn] at h; cases h
    | ok q =>
      obtain ⟨s1, t, r, l1⟩ := q
      rw [hn] at h
      simp only [] at h
      obtain ⟨hs, rfl, e, y, hl, hcase⟩ := next_inv hn
      obtain ⟨j, w, k, y0, el, hw, hy0, hle, hk⟩ := lowNext_inv hz hl
      have hwn : r = [] → w = [] := fun hr => written_nil (hr ▸ hw)
      rcases hcase with ⟨rfl, hst, rfl, -⟩ | ⟨rfl, hyc, rfl, rfl⟩ | ⟨rfl, hst, rfl⟩
      · -- the end
        rcases leave_cases hle with ⟨-, rfl, rfl⟩ | ⟨h1, -, -⟩ | ⟨h1, -, -⟩
        · simp at h
          obtain ⟨rfl, rfl⟩ := h
          by_cases hr : r = []
          · subst hr
            have := hwn rfl
            subst this
            refine ⟨j + k, [], false, ?_, wr_nil, trivial, trivial, ?_, ?_, ?_⟩
            · rw [el]; simp [body, ctext, replicate_add', -List.replicate_append_replicate]
            · intro _
              rcases hst with ⟨rfl, -, -⟩ | ⟨rfl, -⟩
              · exact Or.inr ⟨rfl, rfl⟩
              · exact Or.inl rfl
            · rcases hst with ⟨rfl, -, rfl⟩ | ⟨rfl, rfl⟩ <;> rfl
            · simp [outs]
          · rcases hst with ⟨-, h, -⟩ | ⟨rfl, rfl⟩
            · exact absurd h hr
            · refine ⟨j, [(.path w r, k)], false, ?_, wr_cons_path hw hr wr_nil, trivial, trivial, ?_, rfl, ?_⟩
              · rw [el]; simp [body, ctext, Item.text]
              · intro _; exact Or.inl rfl
              · simp [outs, hr]
        · cases h1
        · cases h1
      · rcases leave_cases hle with ⟨h1, -, -⟩ | ⟨-, rfl, rfl⟩ | ⟨-, rfl, hne, hnb⟩
        · cases h1
        · -- continued
          simp at h
          obtain ⟨rfl, rfl⟩ := h
          by_cases hr : r = []
          · subst hr
            have := hwn rfl
            subst this
            refine ⟨j + k, [], true, ?_, wr_nil, trivial, trivial, by simp, ?_, ?_⟩
            · rw [el]; simp [body, ctext, replicate_add', -List.replicate_append_replicate]
            · simp [lineEnd, stAfter]
            · simp [outs]
          · refine ⟨j, [(.path w r, k)], true, ?_, wr_cons_path hw hr wr_nil, trivial, ?_, by simp, ?_, ?_⟩
            · rw [el]; simp [body, ctext, Item.text]
            · cases s <;> simp [Okay] at hs ⊢
            · cases s <;> simp [lineEnd, stAfter, hr] at hs ⊢
            · cases s <;> simp [outs, hr] at hs ⊢
        · -- more on this line
          rw [if_neg hne] at h
          have hnaft : ¬ After y0 := by
            rintro (hh | hh | hh | hh)
            · exact hne hh
            · exact hnb hh
            · exact hy0 hh
            · exact hyc hh
          have hr : r ≠ [] := fun hr => hnaft (hk (Or.inr hr))
          have hk0 : k ≠ 0 := fun h => hnaft (hk (Or.inl h))
          cases hp : parseLine fuel (if s = .begin ∧ r ≠ [] then St.targets else s) y0 with
          | error b => rw [hp] at h; cases h
          | ok q =>
            obtain ⟨s2, out2⟩ := q
            rw [hp] at h
            simp at h
            obtain ⟨rfl, rfl⟩ := h
            have hzy : '\x00' ∉ y0 := fun hh => hz (by rw [el]; simp [hh])
            obtain ⟨j', is, c, e', hwr, hsep, hok, hc, hs2, ho⟩ := ih _ _ _ _ hzy hp
            have hj' : j' = 0 := by
              cases y0 with
              | nil => exact absurd rfl hne
              | cons a y =>
                refine replicate_append_inv e' ?_
                intro h; exact hy0 (by simp [h])
            subst hj'
            simp only [List.replicate_zero, List.nil_append] at e'
            have hisn : is ≠ [] := by
              rintro rfl
              cases c
              · exact hne (by rw [e']; rfl)
              · exact hnb (by rw [e']; rfl)
            refine ⟨j, (.path w r, k) :: is, c, ?_, wr_cons_path hw hr hwr, ?_, ?_, ?_, ?_, ?_⟩
            · rw [el, e']; simp [body, Item.text]
            · cases is with
              | nil => exact absurd rfl hisn
              | cons i is =>
                obtain ⟨i, k'⟩ := i
                cases i with
                | path w' p' => exact ⟨by omega, hsep⟩
                | colon => exact hsep
            · cases s <;> simp [Okay, hr] at hs hok ⊢ <;> exact hok
            · intro hcf
              rcases hc hcf with h | h
              · left; cases s <;> simp [stAfter, hr] at hs h ⊢ <;> exact h
              · exact absurd h.2 hisn
            · rw [hs2]; cases s <;> simp [stAfter, hr] at hs ⊢
            · rw [ho]; cases s <;> simp [outs, hr] at hs ⊢
      · -- the colon
        rcases leave_cases hle with ⟨-, -, h1⟩ | ⟨-, -, h1⟩ | ⟨-, rfl, hne, hnb⟩
        · cases h1
        · cases h1
        have hzy : '\x00' ∉ l1 := fun hh => hz (by rw [el]; simp [hh])
        have key : ∃ j' is c, l1 = List.replicate j' ' ' ++ (body is ++ ctext c) ∧ Wr is ∧ Separated is ∧
            Okay .prereqs (is.map (·.1)) ∧ s' = lineEnd (stAfter .prereqs (is.map (·.1))) c ∧
            (c = false → stAfter .prereqs (is.map (·.1)) = .prereqs) ∧
            out = (if r = [] then [] else [(Ty.target, r)]) ++ outs .prereqs (is.map (·.1)) := by
          have ht : (if s = .prereqs then Ty.prereq else .target) = .target := by
            rcases hst with rfl | ⟨rfl, -⟩ <;> rfl
          rw [ht] at h
          by_cases hl1 : l1 = []
          · rw [if_pos hl1, if_pos hl1] at h
            simp at h
            obtain ⟨rfl, rfl⟩ := h
            exact ⟨0, [], false, by simp [hl1, body, ctext], wr_nil, trivial, trivial, rfl, fun _ => rfl,
              by simp [outs]⟩
          · rw [if_neg hl1, if_neg hl1] at h
            cases hp : parseLine fuel St.prereqs l1 with
            | error b => rw [hp] at h; cases h
            | ok q =>
              obtain ⟨s2, out2⟩ := q
              rw [hp] at h
              simp at h
              obtain ⟨rfl, rfl⟩ := h
              obtain ⟨j', is, c, e', hwr, hsep, hok, hc, hs2, ho⟩ := ih _ _ _ _ hzy hp
              refine ⟨j', is, c, e', hwr, hsep, hok, hs2, ?_, by rw [ho]⟩
              intro h
              rcases hc h with h | h
              · exact h
              · exact absurd h.1 (by decide)
        obtain ⟨j', is, c, e', hwr, hsep, hok, hs2, hc, ho⟩ := key
        by_cases hr : r = []
        · subst hr
          have := hwn rfl
          subst this
          rcases hst with rfl | ⟨-, h⟩
          · refine ⟨j + k, (.colon, j') :: is, c, ?_, wr_cons_colon hwr, hsep, hok,
              fun h => Or.inl (hc h), hs2, by simpa [outs] using ho⟩
            rw [el, e']; simp [body, Item.text, replicate_add', -List.replicate_append_replicate]
          · exact absurd rfl h
        · refine ⟨j, (.path w r, k) :: (.colon, j') :: is, c, ?_,
            wr_cons_path hw hr (wr_cons_colon hwr), hsep, ?_, ?_, ?_, ?_⟩
          · rw [el, e']; simp [body, Item.text]
          · rcases hst with rfl | ⟨rfl, -⟩ <;> exact hok
          · intro hcf; left; rcases hst with rfl | ⟨rfl, -⟩ <;> exact hc hcf
          · rw [hs2]; rcases hst with rfl | ⟨rfl, -⟩ <;> rfl
          · rw [ho]; rcases hst with rfl | ⟨rfl, -⟩ <;> simp [outs, hr]

end Verif.Make
