import Verif.Install.Model
/-!
# Filters
-/

namespace Verif.Install

theorem subMatch_iff' (d : List (String → Bool)) (ys : List String) :
    subMatch d ys = true ↔
      ∃ xs rest, ys = xs ++ rest ∧ xs.length = d.length ∧ ∀ mx ∈ d.zip xs, mx.1 mx.2 = true := by
  induction d generalizing ys with
  | nil =>
    rw [subMatch]
    exact ⟨fun _ => ⟨[], ys, rfl, rfl, by simp⟩, fun _ => rfl⟩
  | cons m d ih =>
    cases ys with
    | nil =>
      rw [subMatch]
      constructor
      · intro h; cases h
      · rintro ⟨xs, rest, h1, h2, -⟩
        have := List.append_eq_nil_iff.mp h1.symm
        rw [this.1] at h2
        cases h2
    | cons y ys =>
      rw [subMatch, Bool.and_eq_true, ih]
      constructor
      · rintro ⟨h, xs, rest, h1, h2, h3⟩
        refine ⟨y :: xs, rest, by rw [h1]; rfl, by simp [h2], ?_⟩
        intro mx hmx
        rw [List.zip_cons_cons] at hmx
        rcases List.mem_cons.mp hmx with rfl | hmx
        · exact h
        · exact h3 mx hmx
      · rintro ⟨xs, rest, h1, h2, h3⟩
        cases xs with
        | nil => cases h2
        | cons x xs =>
          rw [List.cons_append, List.cons.injEq] at h1
          obtain ⟨rfl, h1⟩ := h1
          rw [List.zip_cons_cons] at h3
          refine ⟨h3 (m, y) (by simp), xs, rest, h1, by simpa using h2, ?_⟩
          exact fun mx hmx => h3 mx (List.mem_cons_of_mem _ hmx)

theorem subMatch_iff {d : List (String → Bool)} {base : Path} :
    subMatch d base.reverse = true ↔ Inside d base := subMatch_iff' d base.reverse

/-- The limit is how deep the directories included so far are. -/
def Limit (base : Path) (leaf : String) (link : Bool) (seen : List Rule) (limit : Nat) : Prop :=
  ∀ n, n + 1 ≤ limit ↔ ∃ o ∈ seen, o.Matches base leaf link ∧ ∃ k, o.Opens k ∧ n ≤ k

theorem limit_same {base : Path} {leaf : String} {link : Bool} {seen : List Rule} {limit : Nat}
    (h : Limit base leaf link seen limit) {r : Rule}
    (hr : r.Matches base leaf link → ∀ k, r.Opens k → k + 1 ≤ limit) :
    Limit base leaf link (seen ++ [r]) limit := by
  intro n
  constructor
  · intro hn
    obtain ⟨o, ho, h1⟩ := (h n).mp hn
    exact ⟨o, List.mem_append_left _ ho, h1⟩
  · rintro ⟨o, ho, h1, k, h2, h3⟩
    rcases List.mem_append.mp ho with ho | ho
    · exact (h n).mpr ⟨o, ho, h1, k, h2, h3⟩
    · rw [List.mem_singleton] at ho
      subst ho
      have := hr h1 k h2
      omega

/-- The first one that determines the outcome, if any. -/
def Outcome (negate : Bool) (base : Path) (leaf : String) (link : Bool) (seen rs : List Rule)
    (v : Bool) : Prop :=
  (∃ pre r post, rs = pre ++ r :: post ∧ r.Decides (seen ++ pre) base leaf link ∧
    (∀ a x b, pre = a ++ x :: b → ¬ x.Decides (seen ++ a) base leaf link) ∧
    v = (if negate then !r.value else r.value)) ∨
  ((∀ pre r post, rs = pre ++ r :: post → ¬ r.Decides (seen ++ pre) base leaf link) ∧
    v = !negate)

theorem outcome_now {negate : Bool} {base : Path} {leaf : String} {link : Bool}
    {seen rs : List Rule} {r : Rule} (h : r.Decides seen base leaf link) :
    Outcome negate base leaf link seen (r :: rs) (if negate then !r.value else r.value) := by
  refine Or.inl ⟨[], r, rs, rfl, by simpa using h, ?_, rfl⟩
  intro a x b hab
  cases a <;> cases hab

theorem outcome_later {negate : Bool} {base : Path} {leaf : String} {link : Bool}
    {seen rs : List Rule} {r : Rule} {v : Bool} (h : ¬ r.Decides seen base leaf link)
    (ho : Outcome negate base leaf link (seen ++ [r]) rs v) :
    Outcome negate base leaf link seen (r :: rs) v := by
  rcases ho with ⟨pre, x, post, h1, h2, h3, h4⟩ | ⟨h1, h2⟩
  · refine Or.inl ⟨r :: pre, x, post, by rw [h1]; rfl, by simpa using h2, ?_, h4⟩
    intro a y b hab
    cases a with
    | nil =>
      rw [List.nil_append, List.cons.injEq] at hab
      rw [← hab.1]
      simpa using h
    | cons z a =>
      rw [List.cons_append, List.cons.injEq] at hab
      have := h3 a y b hab.2
      rw [← hab.1]
      simpa using this
  · refine Or.inr ⟨?_, h2⟩
    intro a y b hab
    cases a with
    | nil =>
      rw [List.nil_append, List.cons.injEq] at hab
      rw [← hab.1]
      simpa using h
    | cons z a =>
      rw [List.cons_append, List.cons.injEq] at hab
      have := h1 a y b hab.2
      rw [← hab.1]
      simpa using this

theorem filterLoop_outcome (negate : Bool) (base : Path) (leaf : String) (link : Bool)
    (seen rs : List Rule) (limit : Nat) (hl : Limit base leaf link seen limit) :
    Outcome negate base leaf link seen rs (filterLoop negate base leaf link limit rs) := by
  induction rs generalizing seen limit with
  | nil =>
    refine Or.inr ⟨?_, rfl⟩
    intro a x b hab
    cases a <;> cases hab
  | cons r rs ih =>
    rw [filterLoop]
    -- Does not match.
    have skip : ¬ r.Matches base leaf link →
        Outcome negate base leaf link seen (r :: rs) (filterLoop negate base leaf link limit rs) := by
      intro h
      exact outcome_later (fun hd => h hd.1)
        (ih _ _ (limit_same hl fun hm => absurd hm h))
    by_cases hs : r.symlink && !link
    · rw [if_pos hs]
      apply skip
      rintro ⟨h, -⟩
      simp at hs
      rw [h hs.1] at hs
      simp at hs
    · rw [if_neg hs]
      have hsym : r.symlink = true → link = true := by
        intro h
        simpa [h] using hs
      cases hk : r.key with
      | leaf m =>
        simp only
        by_cases hm : m leaf = true
        · rw [if_pos hm]
          refine outcome_now ⟨⟨hsym, by rw [hk]; exact hm⟩, ?_⟩
          intro d hd
          rw [hk] at hd
          cases hd
        · rw [if_neg hm]
          apply skip
          rintro ⟨-, h⟩
          rw [hk] at h
          exact hm h
      | ent d m =>
        simp only
        by_cases hm : (subMatch d base.reverse && m leaf) = true
        · rw [if_pos hm]
          rw [Bool.and_eq_true, subMatch_iff] at hm
          refine outcome_now ⟨⟨hsym, by rw [hk]; exact hm⟩, ?_⟩
          intro d hd
          rw [hk] at hd
          cases hd
        · rw [if_neg hm]
          rw [Bool.and_eq_true, subMatch_iff] at hm
          apply skip
          rintro ⟨-, h⟩
          rw [hk] at h
          exact hm h
      | dir d =>
        simp only
        by_cases h1 : d.length + 1 ≤ limit
        · rw [if_pos h1]
          refine outcome_later ?_ (ih _ _ (limit_same hl ?_))
          · rintro ⟨-, h⟩
            obtain ⟨o, ho, hm, k, hok, hle⟩ := (hl d.length).mp h1
            have := (h d hk).2 o ho hm k hok
            omega
          · rintro - k ⟨d', hd', -, rfl⟩
            rw [hk] at hd'
            cases hd'
            exact h1
        · rw [if_neg h1]
          by_cases h2 : subMatch d base.reverse = true
          · have hmatch : r.Matches base leaf link := ⟨hsym, by rw [hk]; exact subMatch_iff.mp h2⟩
            rw [if_neg (by simp [h2])]
            cases hv : r.value with
            | true =>
              simp only [if_true]
              refine outcome_later ?_ (ih _ _ ?_)
              · rintro ⟨-, h⟩
                have := (h d hk).1
                rw [hv] at this
                cases this
              · intro n
                constructor
                · intro hn
                  exact ⟨r, by simp, hmatch, d.length, ⟨d, hk, hv, rfl⟩, by omega⟩
                · rintro ⟨o, ho, h3, k, h4, h5⟩
                  rcases List.mem_append.mp ho with ho | ho
                  · have := (hl n).mpr ⟨o, ho, h3, k, h4, h5⟩
                    omega
                  · rw [List.mem_singleton] at ho
                    subst ho
                    obtain ⟨d', hd', -, rfl⟩ := h4
                    rw [hk] at hd'
                    cases hd'
                    omega
            | false =>
              simp only [Bool.false_eq_true, if_false]
              have := outcome_now (negate := negate) (rs := rs) (seen := seen) (r := r)
                (base := base) (leaf := leaf) (link := link) ⟨hmatch, fun d' hd' => ⟨hv, ?_⟩⟩
              · rw [hv] at this
                exact this
              · intro o ho hm n hn
                rw [hk] at hd'
                cases hd'
                apply Decidable.byContradiction
                intro hlt
                exact h1 ((hl d.length).mpr ⟨o, ho, hm, n, hn, by omega⟩)
          · rw [if_pos (by simp [h2])]
            apply skip
            rintro ⟨-, h⟩
            rw [hk] at h
            exact h2 (subMatch_iff.mpr h)

end Verif.Install
