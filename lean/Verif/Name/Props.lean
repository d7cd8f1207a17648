import Verif.Name.Split

/-! C26 and C27: target names with extensions. -/

namespace Verif.Name

/-! ## C27: splitting -/

theorem scanT_dotOnly (ts : List Tok) (base : Nat) (s s' : Scan) (h : scanT base ts s = .ok s') :
    s'.dotOnly = (s.dotOnly && ts.all isDs) := by
  induction ts generalizing base s' with
  | nil => simp [scanT] at h; subst h; simp
  | cons t ts ih =>
    cases t with
    | ch c =>
      simp only [scanT] at h
      split at h
      · cases h
      · cases h; simp [isDs]
    | ds k =>
      simp only [scanT] at h
      split at h
      · cases h
      · rename_i s1 h1
        have := ih _ _ h1
        have hd : s'.dotOnly = s1.dotOnly := by
          unfold onDots at h
          split at h
          · split at h
            · cases h
            · cases h; rfl
          · split at h
            · split at h <;> cases h <;> rfl
            · split at h
              · cases h; rfl
              · cases h
        rw [hd, this]; simp [isDs]

theorem toks_inj {a b : List Char} (h : toks a = toks b) : a = b := by
  rw [← expand_toks a, h, expand_toks]

theorem noSep_toks {leaf : List Char} (h : '/' ∉ leaf) : noSep (toks leaf) := by
  rw [noSep_iff, expand_toks]; exact h

theorem toks_eq_nil {a : List Char} : toks a = [] ↔ a = [] := by
  constructor
  · intro h; exact toks_inj (b := []) h
  · rintro rfl; rfl

theorem len_eq_zero {ts : List Tok} (h : WF ts) : len ts = 0 ↔ ts = [] := by
  rw [len, List.length_eq_zero_iff, expand_eq_nil h]

/-- Splitting a name in `v` = directory + leaf. -/
theorem split_leaf {v dir leaf : List Char} (hv : v ≠ []) (hl : IsLeaf v dir leaf) :
    split v =
      match scanT dir.length (toks leaf) start with
      | .error e => .err e
      | .ok s =>
        if s.dotOnly then .err .invalidName
        else if s.edp = some dir.length then
          if s.edn = 3 then .err .leadingTriple
          else finish v none s.edn s.escaped dir.length
        else finish v s.edp s.edn s.escaped dir.length := by
  obtain ⟨rfl, h2, h3⟩ := hl
  have := split_toks h3 (toks leaf) (wf_toks leaf) (noSep_toks h2) (by rw [expand_toks]; exact hv)
  rw [expand_toks] at this
  exact this

/-- Every bad name is an error. -/
theorem bad_is_error (v dir leaf : List Char) (hv : v ≠ []) (hl : IsLeaf v dir leaf)
    (hb : Bad leaf) : ∃ e, split v = .err e := by
  rw [split_leaf hv hl]
  cases hs : scanT dir.length (toks leaf) start with
  | error e => exact ⟨e, rfl⟩
  | ok s =>
    obtain ⟨k1, -, k3, k4⟩ := scanT_ok _ _ _ _ hs
    have hdo := scanT_dotOnly _ _ _ _ hs
    rcases hb with hb | ⟨k, a, b, hr, h1, h2⟩ | ⟨a, b, a', b', hr, hr', hne⟩ | ⟨b, hr⟩
    · have : (toks leaf).all isDs = true := by
        rw [all_ds_iff (wf_toks leaf), expand_toks]; exact hb
      refine ⟨.invalidName, ?_⟩
      simp [hdo, this, start]
    · exact absurd ⟨h1, h2⟩ (k1 k (mem_run.1 ⟨a, b, hr⟩))
    · exfalso
      have e1 := toks_of_run hr
      have e2 := toks_of_run hr'
      obtain ⟨n1, n2⟩ := k4 _ _ e1
      exact hne (toks_inj (append_unique (e1.symm.trans e2) n1 n2).1)
    · have e1 := toks_of_run hr
      obtain ⟨n1, n2⟩ := k4 _ _ e1
      have e1' : toks leaf = [] ++ .ds 3 :: toks b := e1
      rw [e1', scanT_triple [] (toks b) (by intro k hk; cases hk)
        (plain_of (fun k hk => k1 k (by rw [e1]; simp [hk])) n2)] at hs
      cases hs
      cases ([] ++ Tok.ds 3 :: toks b).all isDs with
      | true => exact ⟨.invalidName, by simp⟩
      | false => exact ⟨.leadingTriple, by simp [len, expand]⟩

theorem last_single {ts : List Tok} (h : .ds 1 ∈ ts) :
    ∃ A B, ts = A ++ .ds 1 :: B ∧ .ds 1 ∉ B := by
  induction ts with
  | nil => cases h
  | cons t ts ih =>
    by_cases hts : .ds 1 ∈ ts
    · obtain ⟨A, B, h1, h2⟩ := ih hts
      exact ⟨t :: A, B, by rw [h1]; rfl, h2⟩
    · rcases List.mem_cons.1 h with h | h
      · exact ⟨[], ts, by rw [h]; rfl, hts⟩
      · exact absurd h hts

/-- Every name that is not bad has a reading. -/
theorem reads_exists (leaf : List Char) (hb : ¬ Bad leaf) : ∃ n x, Reads leaf n x := by
  have hw := wf_toks leaf
  have h5 : ∀ k, .ds k ∈ toks leaf → ¬ Odd5 k := by
    intro k hk ho
    obtain ⟨a, b, hr⟩ := mem_run.2 hk
    exact hb (Or.inr (Or.inl ⟨k, a, b, hr, ho⟩))
  have mk : ∀ A, WF A → Plain A → ∃ n, Means (expand A) n := by
    intro A hA hp
    obtain ⟨us, -, -, -, h4, -⟩ := unT_spec A hA hp
    exact ⟨_, h4⟩
  by_cases h3 : .ds 3 ∈ toks leaf
  · obtain ⟨A, B, hAB⟩ := List.append_of_mem h3
    have hw' := hw
    rw [hAB] at hw'
    have hr := run_of_toks hw'
    rw [← hAB, expand_toks] at hr
    have h3A : .ds 3 ∉ A := by
      intro hc
      obtain ⟨A1, A2, hA⟩ := List.append_of_mem hc
      have hw2 := hw'
      rw [hA, List.append_assoc, List.cons_append] at hw2
      have hr2 := run_of_toks hw2
      rw [← List.cons_append, ← List.append_assoc, ← hA, ← hAB, expand_toks] at hr2
      refine hb (Or.inr (Or.inr (Or.inl ⟨_, _, _, _, hr, hr2, ?_⟩)))
      intro he
      have := congrArg List.length he
      rw [hA] at this
      simp [expand_append, expand, Tok.text] at this
    have h3B : .ds 3 ∉ B := by
      intro hc
      obtain ⟨B1, B2, hB⟩ := List.append_of_mem hc
      have hw2 := hw'
      rw [hB, ← List.cons_append, ← List.append_assoc] at hw2
      have hr2 := run_of_toks hw2
      rw [List.append_assoc, List.cons_append, ← hB, ← hAB, expand_toks] at hr2
      refine hb (Or.inr (Or.inr (Or.inl ⟨_, _, _, _, hr, hr2, ?_⟩)))
      intro he
      have := congrArg List.length he
      simp [expand_append, expand, Tok.text] at this
    have pA : Plain A := plain_of (fun k hk => h5 k (by rw [hAB]; simp [hk])) h3A
    have pB : Plain B := plain_of (fun k hk => h5 k (by rw [hAB]; simp [hk])) h3B
    have wA := wf_left hw'
    have wB := (wf_right hw').2.2
    obtain ⟨n, hn⟩ := mk A wA pA
    obtain ⟨x, hx⟩ := mk B wB pB
    by_cases hB : B = []
    · subst hB
      exact ⟨n, none, .unspecified hr hn⟩
    · exact ⟨n, some x, .triple hr (fun he => hB ((expand_eq_nil wB).1 he)) hn hx⟩
  · have hno3 : ∀ a b, ¬ Run leaf 3 a b := fun a b hr => h3 (mem_run.1 ⟨a, b, hr⟩)
    have hp := plain_of h5 h3
    -- the last single dot
    by_cases h1 : .ds 1 ∈ toks leaf
    · have := last_single h1
      obtain ⟨A, B, hAB, hB⟩ := this
      have hw' := hw
      rw [hAB] at hw'
      have hr := run_of_toks hw'
      rw [← hAB, expand_toks] at hr
      have pA : Plain A := fun k hk => hp k (by rw [hAB]; simp [hk])
      have pB : Plain B := fun k hk => hp k (by rw [hAB]; simp [hk])
      have wA := wf_left hw'
      have wB := (wf_right hw').2.2
      obtain ⟨n, hn⟩ := mk A wA pA
      obtain ⟨x, hx⟩ := mk B wB pB
      by_cases hA : A = []
      · subst hA
        obtain ⟨m, hm⟩ := mk (toks leaf) hw hp
        rw [expand_toks] at hm
        have honly : ∀ a b, Run leaf 1 a b → a = [] := by
          intro a b hr'
          have e := toks_of_run hr'
          rw [hAB] at e
          have := (append_unique e (by simp) hB).1
          exact toks_eq_nil.1 this.symm
        by_cases hl : leaf.getLast? = some '.'
        · exact ⟨m, some [], .noExt hno3 honly hm hl⟩
        · exact ⟨m, none, .none hno3 honly hm hl⟩
      · refine ⟨n, some x, .single hno3 hr (fun he => hA ((expand_eq_nil wA).1 he)) ?_ hn hx⟩
        intro a' b' hr'
        have := mem_run.1 ⟨a', b', hr'⟩
        rw [toks_expand wB] at this
        exact hB this
    · obtain ⟨m, hm⟩ := mk (toks leaf) hw hp
      rw [expand_toks] at hm
      have honly : ∀ a b, Run leaf 1 a b → a = [] :=
        fun a b hr' => absurd (mem_run.1 ⟨a, b, hr'⟩) h1
      by_cases hl : leaf.getLast? = some '.'
      · exact ⟨m, some [], .noExt hno3 honly hm hl⟩
      · exact ⟨m, none, .none hno3 honly hm hl⟩

/-- A name that is not bad is split into what it reads as. -/
theorem good_is_split (v dir leaf : List Char) (hv : v ≠ []) (hl : IsLeaf v dir leaf)
    (hb : ¬ Bad leaf) (n : List Char) (x : Option (List Char)) (hr : Reads leaf n x) :
    split v = .ok (dir ++ n) x := by
  have hw := wf_toks leaf
  have hve : v = dir ++ expand (toks leaf) := by rw [expand_toks]; exact hl.1
  rw [split_leaf hv hl]
  have hnd : (toks leaf).all isDs = false := by
    cases h : (toks leaf).all isDs with
    | false => rfl
    | true =>
      rw [all_ds_iff hw, expand_toks] at h
      exact absurd (Or.inl h) hb
  have hne : toks leaf ≠ [] := by
    intro h; rw [h] at hnd; cases hnd
  cases hr with
  | @triple a b n x hr hbn ha hx =>
    have e := toks_of_run hr
    obtain ⟨uA, u1, u2, pA⟩ := means_unT ha
    obtain ⟨uB, v1, v2, pB⟩ := means_unT hx
    have hA : toks a ≠ [] := by
      intro h
      rw [toks_eq_nil] at h; subst h
      exact hb (Or.inr (Or.inr (Or.inr ⟨b, hr⟩)))
    rw [e] at hnd hw
    rw [e, scanT_triple _ _ pA pB]
    simp only [hnd]
    have hlen : len (toks a) ≠ 0 := fun h => hA ((len_eq_zero (wf_toks a)).1 h)
    rw [if_neg (by simp), if_neg (by simp; omega), hve, e,
      finish_some dir _ _ uA uB 3 (Or.inr rfl) hw pA pB u1 v1, if_pos (by rw [Ne, toks_eq_nil]; exact hbn),
      u2, v2]
  | @unspecified a n hr ha =>
    have e := toks_of_run hr
    obtain ⟨uA, u1, u2, pA⟩ := means_unT ha
    have pB : Plain (toks []) := by intro k hk; cases hk
    have hA : toks a ≠ [] := by
      intro h
      rw [toks_eq_nil] at h; subst h
      exact hb (Or.inr (Or.inr (Or.inr ⟨[], hr⟩)))
    rw [e] at hnd hw
    rw [e, scanT_triple _ _ pA pB]
    simp only [hnd]
    have hlen : len (toks a) ≠ 0 := fun h => hA ((len_eq_zero (wf_toks a)).1 h)
    rw [if_neg (by simp), if_neg (by simp; omega), hve, e,
      finish_some dir _ _ uA [] 3 (Or.inr rfl) hw pA pB u1 rfl, u2]
    rfl
  | @single a b n x hno3 hr ha hnb hma hmb =>
    have e := toks_of_run hr
    obtain ⟨uA, u1, u2, pA⟩ := means_unT hma
    obtain ⟨uB, v1, v2, pB⟩ := means_unT hmb
    have hA : toks a ≠ [] := fun h => ha (toks_eq_nil.1 h)
    have h1B : .ds 1 ∉ toks b := by
      intro hc
      obtain ⟨a', b', h'⟩ := mem_run.2 hc
      exact hnb a' b' h'
    rw [e] at hnd hw
    rw [e, scanT_single _ _ pA pB h1B]
    simp only [hnd]
    have hlen : len (toks a) ≠ 0 := fun h => hA ((len_eq_zero (wf_toks a)).1 h)
    rw [if_neg (by simp), if_neg (by simp; omega), hve, e,
      finish_some dir _ _ uA uB 1 (Or.inl rfl) hw pA pB u1 v1, u2, v2]
    by_cases hB : toks b = []
    · have : b = [] := toks_eq_nil.1 hB
      subst this
      have : uB = [] := by
        have : unT (toks []) = some [] := rfl
        rw [v1] at this; exact Option.some.inj this
      rw [if_neg (fun h => h hB), ← v2, this]
      rfl
    · rw [if_pos hB]
  | noExt hno3 hlead hm hlast =>
    obtain ⟨us, u1, u2, hp⟩ := means_unT hm
    have hend : endDs (toks leaf) = true := by
      rw [endDs_iff hw, expand_toks]; exact hlast
    have fin : ∀ k, finish v none k ((toks leaf).any isEven) dir.length = .ok (dir ++ n) (some []) := by
      intro k
      rw [hve, finish_none dir _ us k hw hp u1 hne, u2, hend]
      rfl
    by_cases h1 : .ds 1 ∈ toks leaf
    · obtain ⟨a, b, hr⟩ := mem_run.2 h1
      have := hlead a b hr
      subst this
      have e : toks leaf = [] ++ .ds 1 :: toks b := toks_of_run hr
      have h1B : .ds 1 ∉ toks b := by
        intro hc
        obtain ⟨B1, B2, hB⟩ := List.append_of_mem hc
        have hw2 := hw
        rw [e, hB, List.nil_append, ← List.cons_append] at hw2
        have hr2 := run_of_toks hw2
        rw [List.cons_append, ← hB, ← List.nil_append (Tok.ds 1 :: toks b), ← e, expand_toks] at hr2
        have := hlead _ _ hr2
        simp [expand, Tok.text] at this
      have pB : Plain (toks b) := fun k hk => hp k (by rw [e]; simp [hk])
      have hs := scanT_single [] (toks b) (by intro k hk; cases hk) pB h1B dir.length
      rw [← e] at hs
      rw [hs]
      simp only [hnd]
      rw [if_neg (by simp), if_pos (by simp [len, expand]), if_neg (by decide), fin]
    · rw [scanT_none _ hp h1]
      simp only [hnd]
      rw [if_neg (by simp), if_neg (by simp), fin]
  | none hno3 hlead hm hlast =>
    obtain ⟨us, u1, u2, hp⟩ := means_unT hm
    have hend : endDs (toks leaf) = false := by
      cases h : endDs (toks leaf) with
      | false => rfl
      | true => rw [endDs_iff hw, expand_toks] at h; exact absurd h hlast
    have fin : ∀ k, finish v none k ((toks leaf).any isEven) dir.length = .ok (dir ++ n) none := by
      intro k
      rw [hve, finish_none dir _ us k hw hp u1 hne, u2, hend]
      rfl
    by_cases h1 : .ds 1 ∈ toks leaf
    · obtain ⟨a, b, hr⟩ := mem_run.2 h1
      have := hlead a b hr
      subst this
      have e : toks leaf = [] ++ .ds 1 :: toks b := toks_of_run hr
      have h1B : .ds 1 ∉ toks b := by
        intro hc
        obtain ⟨B1, B2, hB⟩ := List.append_of_mem hc
        have hw2 := hw
        rw [e, hB, List.nil_append, ← List.cons_append] at hw2
        have hr2 := run_of_toks hw2
        rw [List.cons_append, ← hB, ← List.nil_append (Tok.ds 1 :: toks b), ← e, expand_toks] at hr2
        have := hlead _ _ hr2
        simp [expand, Tok.text] at this
      have pB : Plain (toks b) := fun k hk => hp k (by rw [e]; simp [hk])
      have hs := scanT_single [] (toks b) (by intro k hk; cases hk) pB h1B dir.length
      rw [← e] at hs
      rw [hs]
      simp only [hnd]
      rw [if_neg (by simp), if_pos (by simp [len, expand]), if_neg (by decide), fin]
    · rw [scanT_none _ hp h1]
      simp only [hnd]
      rw [if_neg (by simp), if_neg (by simp), fin]

/-- C27: splitting a name fails exactly if it is bad. -/
theorem error_iff_bad (v dir leaf : List Char) (hv : v ≠ []) (hl : IsLeaf v dir leaf) :
    (∃ e, split v = .err e) ↔ Bad leaf := by
  constructor
  · rintro ⟨e, he⟩
    apply Classical.byContradiction
    intro hb
    obtain ⟨n, x, hr⟩ := reads_exists leaf hb
    rw [good_is_split v dir leaf hv hl hb n x hr] at he
    cases he
  · exact bad_is_error v dir leaf hv hl

/-- C27: otherwise it succeeds (no assertion fails) with the name and the extension it reads as, and
there is only one reading. -/
theorem split_iff_reads (v dir leaf : List Char) (hv : v ≠ []) (hl : IsLeaf v dir leaf)
    (hb : ¬ Bad leaf) :
    (∃ n x, split v = .ok (dir ++ n) x) ∧
    ∀ n x, split v = .ok (dir ++ n) x ↔ Reads leaf n x := by
  obtain ⟨n, x, hr⟩ := reads_exists leaf hb
  have h := good_is_split v dir leaf hv hl hb n x hr
  refine ⟨⟨n, x, h⟩, fun n' x' => ⟨?_, fun hr' => good_is_split v dir leaf hv hl hb n' x' hr'⟩⟩
  intro h'
  rw [h] at h'
  injection h' with h1 h2
  rw [← List.append_cancel_left h1, ← h2]
  exact hr

/-! ## C26: combining and splitting again -/

theorem escT_spec (name lead : Bool) (ts : List Tok) (hw : WF ts) :
    let A := (escT name lead ts).1
    WF A ∧ (noDs A ↔ noDs ts) ∧ (A = [] ↔ ts = []) ∧ endDs A = endDs ts ∧ (noSep ts → noSep A) ∧
    Plain A ∧ unT A = some ts ∧ ((∃ c, .ch c ∈ ts) → ∃ c, .ch c ∈ A) := by
  induction ts generalizing lead with
  | nil =>
    refine ⟨trivial, Iff.rfl, Iff.rfl, rfl, id, ?_, rfl, id⟩
    intro k hk; cases hk
  | cons t ts ih =>
    have hend : ∀ (x y : Tok) (a b : List Tok), endDs a = endDs b → (a = [] ↔ b = []) →
        ((∃ c, x = .ch c) ↔ (∃ c, y = .ch c)) → endDs (x :: a) = endDs (y :: b) := by
      intro x y a b h1 h2 h3
      cases a with
      | nil =>
        have : b = [] := h2.1 rfl
        subst this
        cases x <;> cases y <;> simp_all [endDs]
      | cons a0 a =>
        cases b with
        | nil => exact absurd (h2.2 rfl) (by simp)
        | cons b0 b => cases x <;> cases y <;> exact h1
    cases t with
    | ch c =>
      obtain ⟨h1, h2, h3, h4, h5, h6, h7, h8⟩ := ih false hw.2
      refine ⟨⟨hw.1, h1⟩, Iff.rfl, by simp [escT], hend _ _ _ _ h4 h3 Iff.rfl,
        fun h => ⟨h.1, h5 h.2⟩, ?_, ?_, fun _ => ⟨c, by simp [escT]⟩⟩
      · intro k hk
        exact h6 k (by simpa [escT] using hk)
      · simp [escT, unT, h7]
    | ds k =>
      obtain ⟨h1, h2, h3, h4, h5, h6, h7, h8⟩ := ih false hw.2.2
      have hk1 := hw.1
      by_cases hc : k ≠ 1 ∨ (name = true ∧ ts = [])
      · have he : (escT name lead (.ds k :: ts)).1 = .ds (2 * k) :: (escT name false ts).1 := by
          simp only [escT]; rw [if_pos hc]
        rw [he]
        refine ⟨⟨by omega, h2.2 hw.2.1, h1⟩, Iff.rfl, by simp,
          hend _ _ _ _ h4 h3 (by constructor <;> rintro ⟨c, hc⟩ <;> cases hc), h5, ?_, ?_, ?_⟩
        · intro j hj
          rcases List.mem_cons.1 hj with hj | hj
          · cases hj; exact Or.inr (by omega)
          · exact h6 j hj
        · rw [unT, if_neg (by omega), if_pos (by omega), h7]
          simp
        · rintro ⟨c, hcc⟩
          obtain ⟨d, hd⟩ := h8 ⟨c, by simpa using hcc⟩
          exact ⟨d, List.mem_cons_of_mem _ hd⟩
      · have he : (escT name lead (.ds k :: ts)).1 = .ds k :: (escT name false ts).1 := by
          simp only [escT]; rw [if_neg hc]
        have hk : k = 1 := Classical.byContradiction fun h => hc (Or.inl h)
        subst hk
        rw [he]
        refine ⟨⟨by omega, h2.2 hw.2.1, h1⟩, Iff.rfl, by simp,
          hend _ _ _ _ h4 h3 Iff.rfl, h5, ?_, ?_, ?_⟩
        · intro j hj
          rcases List.mem_cons.1 hj with hj | hj
          · cases hj; exact Or.inl rfl
          · exact h6 j hj
        · rw [unT, if_pos rfl, h7]
          simp
        · rintro ⟨c, hcc⟩
          obtain ⟨d, hd⟩ := h8 ⟨c, by simpa using hcc⟩
          exact ⟨d, List.mem_cons_of_mem _ hd⟩

/-- The flag `escape` returns tells whether there is a single dot in the result, other than leading
in a name. -/
theorem escT_flag (name : Bool) (ts : List Tok) (hw : WF ts) :
    ((escT name false ts).2 = true ↔ .ds 1 ∈ (escT name false ts).1) ∧
    ((escT name false ts).2 = true → ∃ A B, ts = A ++ .ds 1 :: B ∧ (name = true → B ≠ [])) := by
  induction ts with
  | nil => exact ⟨by simp [escT], by intro h; cases h⟩
  | cons t ts ih =>
    cases t with
    | ch c =>
      obtain ⟨h1, h2⟩ := ih hw.2
      refine ⟨by simp [escT, h1], ?_⟩
      intro h
      obtain ⟨A, B, h3, h4⟩ := h2 h
      exact ⟨.ch c :: A, B, by rw [h3]; rfl, h4⟩
    | ds k =>
      obtain ⟨h1, h2⟩ := ih hw.2.2
      have hk1 := hw.1
      constructor
      · simp only [escT, Bool.or_eq_true, List.mem_cons, h1]
        by_cases hc : k ≠ 1 ∨ (name = true ∧ ts = [])
        · rw [if_pos hc]
          have : ¬ (Tok.ds 1 = Tok.ds (2 * k)) := by intro h; injection h with h; omega
          rcases hc with hc | ⟨hc, hc'⟩ <;> simp [this, hc]
          intro _ hx; exact absurd hc' hx
        · rw [if_neg hc]
          have hk : k = 1 := Classical.byContradiction fun h => hc (Or.inl h)
          subst hk
          have : ¬ (name = true ∧ ts = []) := fun h => hc (Or.inr h)
          cases name <;> simp_all
      · intro h
        simp only [escT, Bool.or_eq_true] at h
        rcases h with h | h
        · simp at h
          obtain ⟨hk, hn⟩ := h
          subst hk
          refine ⟨[], ts, rfl, ?_⟩
          intro hname
          rcases hn with hn | hn
          · rw [hname] at hn; cases hn
          · exact hn
        · obtain ⟨A, B, h3, h4⟩ := h2 h
          exact ⟨.ds k :: A, B, by rw [h3]; rfl, h4⟩

theorem escT_lead (ts : List Tok) :
    (escT true true ts).1 = (escT true false ts).1 := by
  cases ts with
  | nil => rfl
  | cons t ts => cases t <;> rfl

/-- In a name: the flag is off exactly if every single dot left in the result is leading. -/
theorem escT_flag_name (ts : List Tok) (hw : WF ts) :
    ((escT true true ts).2 = false → ∀ A B, (escT true true ts).1 = A ++ .ds 1 :: B → A = []) ∧
    ((escT true true ts).2 = true → ∃ A B, ts = A ++ .ds 1 :: B ∧ A ≠ [] ∧ B ≠ []) := by
  cases ts with
  | nil =>
    refine ⟨?_, by intro h; cases h⟩
    intro _ A B h
    cases A <;> cases h
  | cons t ts =>
    cases t with
    | ch c =>
      obtain ⟨h1, h2⟩ := escT_flag true ts hw.2
      constructor
      · intro h A B hAB
        have hno : .ds 1 ∉ (escT true false ts).1 := by
          intro hc
          have := h1.2 hc
          have h : (escT true false ts).2 = false := h
          rw [this] at h; cases h
        cases A with
        | nil => rfl
        | cons a A =>
          simp [escT] at hAB
          exfalso; apply hno; rw [hAB.2]; simp
      · intro h
        obtain ⟨A, B, h3, h4⟩ := h2 h
        exact ⟨.ch c :: A, B, by rw [h3]; rfl, by simp, h4 rfl⟩
    | ds k =>
      obtain ⟨h1, h2⟩ := escT_flag true ts hw.2.2
      constructor
      · intro h A B hAB
        have hno : .ds 1 ∉ (escT true false ts).1 := by
          intro hc
          have := h1.2 hc
          simp only [escT] at h
          rw [this] at h; simp at h
        cases A with
        | nil => rfl
        | cons a A =>
          simp [escT] at hAB
          exfalso; apply hno; rw [hAB.2]; simp
      · intro h
        have h : (escT true false ts).2 = true := by
          simp only [escT] at h
          simpa using h
        obtain ⟨A, B, h3, h4⟩ := h2 h
        exact ⟨.ds k :: A, B, by rw [h3]; rfl, by simp, h4 rfl⟩

theorem not_bad {T : List Tok} (hw : WF T) (hc : ∃ c, .ch c ∈ T)
    (h : Plain T ∨ ∃ A B, T = A ++ .ds 3 :: B ∧ Plain A ∧ Plain B ∧ A ≠ []) :
    ¬ Bad (expand T) := by
  have no3 : ∀ X, Plain X → .ds 3 ∉ X := fun X hX hm => by have := hX 3 hm; omega
  have no5 : ∀ X k, Plain X → .ds k ∈ X → ¬ Odd5 k := by
    intro X k hX hm ho; have := hX k hm; unfold Odd5 at ho; omega
  have h5 : ∀ k, .ds k ∈ T → ¬ Odd5 k := by
    intro k hk
    rcases h with h | ⟨A, B, rfl, hA, hB, -⟩
    · exact no5 T k h hk
    · rcases List.mem_append.1 hk with hk | hk
      · exact no5 A k hA hk
      · rcases List.mem_cons.1 hk with hk | hk
        · cases hk; rintro ⟨-, h⟩; omega
        · exact no5 B k hB hk
  rintro (hb | ⟨k, a, b, hr, h1, h2⟩ | ⟨a, b, a', b', hr, hr', hne⟩ | ⟨b, hr⟩)
  · rw [← all_ds_iff hw, List.all_eq_true] at hb
    obtain ⟨c, hc⟩ := hc
    have := hb _ hc
    simp [isDs] at this
  · have := mem_run.1 ⟨a, b, hr⟩
    rw [toks_expand hw] at this
    exact h5 k this ⟨h1, h2⟩
  · have e1 := toks_of_run hr
    have e2 := toks_of_run hr'
    rw [toks_expand hw] at e1 e2
    rcases h with h | ⟨A, B, hT, hA, hB, -⟩
    · exact no3 T h (by rw [e1]; simp)
    · have u1 := (append_unique (hT.symm.trans e1) (no3 A hA) (no3 B hB)).1
      have u2 := (append_unique (hT.symm.trans e2) (no3 A hA) (no3 B hB)).1
      exact hne (toks_inj (u1.symm.trans u2))
  · have e1 := toks_of_run hr
    rw [toks_expand hw] at e1
    rcases h with h | ⟨A, B, hT, hA, hB, hAn⟩
    · exact no3 T h (by rw [e1]; simp)
    · have u1 := (append_unique (hT.symm.trans e1) (no3 A hA) (no3 B hB)).1
      exact hAn u1

theorem escape_dir {dir : List Char} (hd : dir = [] ∨ dir.getLast? = some '/') (n : Nat) :
    escape true n 0 dir.reverse = some (dir.reverse, false) ∧ isLead dir.reverse = true := by
  rcases hd with rfl | hd
  · exact ⟨rfl, rfl⟩
  · rw [← List.head?_reverse] at hd
    cases hr : dir.reverse with
    | nil => rw [hr] at hd; cases hd
    | cons c l =>
      rw [hr] at hd
      simp at hd
      subst hd
      simp [escape, isLead]

theorem means_of_unT {A ts : List Tok} (hA : WF A) (hp : Plain A) (hu : unT A = some ts) :
    Means (expand A) (expand ts) := by
  obtain ⟨us, h1, -, -, h4, -⟩ := unT_spec A hA hp
  rw [hu] at h1; cases h1
  exact h4

/-- The names whose printed form is ambiguous: a trailing dot together with another single dot
that is not leading. -/
def Ambiguous (leaf : List Char) : Prop :=
  leaf.getLast? = some '.' ∧ ∃ a b, Run leaf 1 a b ∧ a ≠ [] ∧ b ≠ []

/-- C26: printing a name and an extension and parsing the result gives them back, for every name
and extension that can be represented and is not ambiguous. If the extension is unspecified then the
caller has to ask for the default extension to be marked (`de`) unless there is no dot in the name
that could be taken for an extension dot. -/
theorem round_trip_partial (dir leaf : List Char) (e : Option (List Char)) (de : Bool)
    (hd : dir = [] ∨ dir.getLast? = some '/') (hr : Representable leaf e) (hamb : ¬ Ambiguous leaf)
    (hde : e = none → de = true ∨ ∀ a b, Run leaf 1 a b → a = []) :
    ∃ w, combine (dir ++ leaf) e de = some w ∧ split w = .ok (dir ++ leaf) e := by
  obtain ⟨hsep, ⟨c, hc, hcd⟩, hext, htrail⟩ := hr
  have hw := wf_toks leaf
  have hns := noSep_toks hsep
  have hleaf : leaf ≠ [] := by intro h; subst h; cases hc
  have hch : ∃ c, .ch c ∈ toks leaf := by
    apply Classical.byContradiction
    intro hn
    have : (toks leaf).all isDs = true := by
      rw [List.all_eq_true]
      intro t ht
      cases t with
      | ch c => exact absurd ⟨c, ht⟩ hn
      | ds k => rfl
    rw [all_ds_iff hw, expand_toks] at this
    exact hcd (this c hc)
  obtain ⟨wA, dA, nA, eA, sA, pA, uA, cA⟩ := escT_spec true true (toks leaf) hw
  obtain ⟨f1, f2⟩ := escT_flag_name (toks leaf) hw
  have hA : (escT true true (toks leaf)).1 ≠ [] := by
    rw [Ne, nA, toks_eq_nil]; exact hleaf
  generalize hAdef : (escT true true (toks leaf)).1 = A at *
  have hcA := cA hch
  have hsA := sA hns
  have mA := means_of_unT wA pA uA
  rw [expand_toks] at mA
  have hnA : expand A ≠ [] := fun h => hA ((expand_eq_nil wA).1 h)
  have hesc : escape true (dir ++ leaf).length 0 (dir ++ leaf).reverse =
      some ((expand A).reverse ++ dir.reverse, (escT true true (toks leaf)).2) := by
    have := escape_toks true (toks leaf) hw hns dir.reverse (Or.inr ?_) (dir ++ leaf).length ?_
    · rw [expand_toks, ← List.reverse_append, (escape_dir hd _).1, (escape_dir hd 0).2] at this
      rw [this]
      simp [hAdef]
    · exact (dir_scan hd start).2
    · simp [len, expand_toks]
  have hlast : ((dir ++ expand A).getLast? = some '.') ↔ leaf.getLast? = some '.' := by
    have h1 : (dir ++ expand A).getLast? = (expand A).getLast? := by
      rw [List.getLast?_append]
      cases h : (expand A).getLast? with
      | none => exact absurd (List.getLast?_eq_none_iff.1 h) hnA
      | some x => rfl
    rw [h1, ← endDs_iff wA, eA, endDs_iff hw, expand_toks]
  have hrev : ((expand A).reverse ++ dir.reverse).reverse = dir ++ expand A := by simp
  -- splitting what is written
  have fin : ∀ T x, WF T → noSep T → (∃ c, .ch c ∈ T) →
      (Plain T ∨ ∃ A B, T = A ++ .ds 3 :: B ∧ Plain A ∧ Plain B ∧ A ≠ []) →
      Reads (expand T) leaf x → split (dir ++ expand T) = .ok (dir ++ leaf) x := by
    intro T x hT hTs hTc hTb hreads
    refine good_is_split _ dir (expand T) ?_ ⟨rfl, noSep_iff.1 hTs, hd⟩ (not_bad hT hTc hTb) leaf x hreads
    intro h0
    have : expand T = [] := (List.append_eq_nil_iff.1 h0).2
    rw [expand_eq_nil hT] at this
    subst this
    obtain ⟨c, hc⟩ := hTc
    cases hc
  have hno3 : ∀ a b, ¬ Run (expand A) 3 a b := by
    intro a b hrun
    have := mem_run.1 ⟨a, b, hrun⟩
    rw [toks_expand wA] at this
    have := pA 3 this
    omega
  unfold combine
  rw [if_neg (by simp [hleaf])]
  simp only [hesc, hrev]
  by_cases htl : leaf.getLast? = some '.'
  · rw [if_pos (hlast.2 htl)]
    have he := htrail htl
    subst he
    refine ⟨_, if_pos (Or.inr rfl), ?_⟩
    apply fin A _ wA hsA hcA (Or.inl pA)
    refine .noExt hno3 ?_ mA ?_
    · -- a single dot that is not leading would be ambiguous
      have hf : (escT true true (toks leaf)).2 = false := by
        cases h : (escT true true (toks leaf)).2 with
        | false => rfl
        | true =>
          obtain ⟨X, Y, hXY, hX, hY⟩ := f2 h
          have hw' := hw
          rw [hXY] at hw'
          have hrun := run_of_toks hw'
          rw [← hXY, expand_toks] at hrun
          refine absurd ⟨htl, _, _, hrun, ?_, ?_⟩ hamb
          · exact fun h => hX ((expand_eq_nil (wf_left hw')).1 h)
          · exact fun h => hY ((expand_eq_nil (wf_right hw').2.2).1 h)
      intro a b hrun
      have e1 := toks_of_run hrun
      rw [toks_expand wA] at e1
      exact toks_eq_nil.1 (f1 hf _ _ e1)
    · rw [← endDs_iff wA, eA, endDs_iff hw, expand_toks]
      exact htl
  · rw [if_neg (fun h => htl (hlast.1 h))]
    have hendA : endDs A = false := by
      cases h : endDs A with
      | false => rfl
      | true => rw [eA, endDs_iff hw, expand_toks] at h; exact absurd h htl
    cases e with
    | none =>
      simp only
      by_cases hq : (de && (escT true true (toks leaf)).2) = true
      · rw [if_pos hq]
        refine ⟨_, rfl, ?_⟩
        have hT : WF (A ++ [.ds 3]) := wf_append wA ⟨by omega, trivial, trivial⟩ (Or.inl hendA)
        have hrun := run_of_toks (a := A) (b := []) hT
        have hexp : expand (A ++ [.ds 3]) = expand A ++ ['.', '.', '.'] := by
          simp [expand_append, expand, Tok.text, List.replicate]
        have := fin (A ++ [.ds 3]) none hT ?_ ?_ ?_ (.unspecified hrun mA)
        · rw [hexp, ← List.append_assoc] at this; exact this
        · rw [noSep_iff] at hsA ⊢
          rw [hexp]; simp [hsA]
        · obtain ⟨d, hd'⟩ := hcA; exact ⟨d, by simp [hd']⟩
        · exact Or.inr ⟨A, [], rfl, pA, by (intro k hk; cases hk), hA⟩
      · rw [if_neg hq]
        refine ⟨_, rfl, ?_⟩
        apply fin A _ wA hsA hcA (Or.inl pA)
        refine .none hno3 ?_ mA ?_
        · have hf : (escT true true (toks leaf)).2 = false := by
            cases h : (escT true true (toks leaf)).2 with
            | false => rfl
            | true =>
              rcases hde rfl with h' | h'
              · rw [h', h] at hq; exact absurd rfl hq
              · obtain ⟨X, Y, hXY, hX, hY⟩ := f2 h
                have hw' := hw
                rw [hXY] at hw'
                have hrun := run_of_toks hw'
                rw [← hXY, expand_toks] at hrun
                exact absurd ((expand_eq_nil (wf_left hw')).1 (h' _ _ hrun)) hX
          intro a b hrun
          have e1 := toks_of_run hrun
          rw [toks_expand wA] at e1
          exact toks_eq_nil.1 (f1 hf _ _ e1)
        · rw [Ne, ← endDs_iff wA, hendA]; simp
    | some x =>
      obtain ⟨xsep, xhead⟩ := hext x rfl
      have hwx := wf_toks x
      have hnsx := noSep_toks xsep
      obtain ⟨wB, dB, nB, eB, sB, pB, uB, -⟩ := escT_spec false false (toks x) hwx
      obtain ⟨g1, -⟩ := escT_flag false (toks x) hwx
      have hlead : ∀ b, escT false b (toks x) = escT false false (toks x) := by
        intro b
        cases h : toks x with
        | nil => rfl
        | cons t ts => cases t <;> simp [escT]
      generalize hBdef : (escT false false (toks x)).1 = B at *
      have hescx : escape false x.length 0 x.reverse =
          some ((expand B).reverse, (escT false false (toks x)).2) := by
        have := escape_toks false (toks x) hwx hnsx [] (Or.inr (by simp)) x.length
          (by simp [len, expand_toks])
        rw [expand_toks, List.append_nil, hlead, hBdef] at this
        rw [this]
        simp [escape]
      simp only [hescx, List.reverse_reverse]
      have mB := means_of_unT wB pB uB
      rw [expand_toks] at mB
      have hnB : noDs B := by
        rw [dB]
        have := head_noDs hwx
        rw [expand_toks] at this
        exact this.1 xhead
      have hsB := sB hnsx
      refine ⟨_, rfl, ?_⟩
      cases hb : (escT false false (toks x)).2 with
      | true =>
        have hBne : B ≠ [] := by
          intro h
          have := g1.1 hb
          rw [h] at this; cases this
        have hT : WF (A ++ .ds 3 :: B) := wf_append wA ⟨by omega, hnB, wB⟩ (Or.inl hendA)
        have hrun := run_of_toks (a := A) (b := B) hT
        have hexp : expand (A ++ .ds 3 :: B) = expand A ++ ['.', '.', '.'] ++ expand B := by
          simp [expand_append, expand, Tok.text, List.replicate]
        have := fin (A ++ .ds 3 :: B) (some x) hT ?_ ?_ ?_
          (.triple hrun (fun h => hBne ((expand_eq_nil wB).1 h)) mA mB)
        · rw [hexp] at this
          simpa using this
        · rw [noSep_iff] at hsA hsB ⊢
          rw [hexp]; simp [hsA, hsB]
        · obtain ⟨d, hd'⟩ := hcA; exact ⟨d, by simp [hd']⟩
        · exact Or.inr ⟨A, B, rfl, pA, pB, hA⟩
      | false =>
        have h1B : .ds 1 ∉ B := by
          intro h
          have := g1.2 h
          rw [hb] at this; cases this
        have hT : WF (A ++ .ds 1 :: B) := wf_append wA ⟨by omega, hnB, wB⟩ (Or.inl hendA)
        have hrun := run_of_toks (a := A) (b := B) hT
        have hexp : expand (A ++ .ds 1 :: B) = expand A ++ ['.'] ++ expand B := by
          simp [expand_append, expand, Tok.text, List.replicate]
        have pT : Plain (A ++ .ds 1 :: B) := by
          intro k hk
          rcases List.mem_append.1 hk with hk | hk
          · exact pA k hk
          · rcases List.mem_cons.1 hk with hk | hk
            · cases hk; exact Or.inl rfl
            · exact pB k hk
        have := fin (A ++ .ds 1 :: B) (some x) hT ?_ ?_ (Or.inl pT)
          (.single ?_ hrun hnA ?_ mA mB)
        · rw [hexp] at this
          simpa using this
        · rw [noSep_iff] at hsA hsB ⊢
          rw [hexp]; simp [hsA, hsB]
        · obtain ⟨d, hd'⟩ := hcA; exact ⟨d, by simp [hd']⟩
        · intro a b hrun'
          have := mem_run.1 ⟨a, b, hrun'⟩
          rw [toks_expand hT] at this
          have := pT 3 this
          omega
        · intro a b hrun'
          have := mem_run.1 ⟨a, b, hrun'⟩
          rw [toks_expand wB] at this
          exact h1B this

theorem means_facts {w l : List Char} (h : Means w l) :
    (w.head? = some '.' ↔ l.head? = some '.') ∧ (w.getLast? = some '.' ↔ l.getLast? = some '.') ∧
    (w = [] ↔ l = []) ∧ (∀ c, c ≠ '.' → (c ∈ w ↔ c ∈ l)) := by
  have last : ∀ (x y a b : List Char), x ≠ [] → y ≠ [] → (a = [] ↔ b = []) →
      (a.getLast? = some '.' ↔ b.getLast? = some '.') →
      (x.getLast? = some '.' ↔ y.getLast? = some '.') →
      ((x ++ a).getLast? = some '.' ↔ (y ++ b).getLast? = some '.') := by
    intro x y a b hx hy h1 h2 h3
    rw [List.getLast?_append, List.getLast?_append]
    by_cases ha : a = []
    · have hb := h1.1 ha
      subst ha; subst hb
      simpa using h3
    · have hb : b ≠ [] := fun h => ha (h1.2 h)
      cases h : a.getLast? with
      | none => exact absurd (List.getLast?_eq_none_iff.1 h) ha
      | some u =>
        cases h' : b.getLast? with
        | none => exact absurd (List.getLast?_eq_none_iff.1 h') hb
        | some v => rw [h, h'] at h2; exact h2
  induction h with
  | nil => simp
  | @char c w l hc hm ih =>
    obtain ⟨-, h2, h3, h4⟩ := ih
    refine ⟨by simp, last [c] [c] w l (by simp) (by simp) h3 h2 Iff.rfl, by simp, ?_⟩
    intro d hd
    simp [h4 d hd]
  | @dot w l hw hm ih =>
    obtain ⟨-, h2, h3, h4⟩ := ih
    refine ⟨by simp, last ['.'] ['.'] w l (by simp) (by simp) h3 h2 Iff.rfl, by simp, ?_⟩
    intro d hd
    simp [h4 d hd]
  | @dots k w l hk hw hm ih =>
    obtain ⟨-, h2, h3, h4⟩ := ih
    obtain ⟨j, rfl⟩ : ∃ j, k = j + 1 := ⟨k - 1, by omega⟩
    have e2 : 2 * (j + 1) = (2 * j + 1) + 1 := by omega
    refine ⟨by rw [e2]; simp [List.replicate_succ], last _ _ w l ?_ ?_ h3 h2 ?_, ?_, ?_⟩
    · rw [e2]; simp [List.replicate_succ]
    · simp [List.replicate_succ]
    · rw [e2]; simp [List.getLast?_replicate]
    · rw [e2]; simp [List.replicate_succ]
    · intro d hd
      have : ∀ n, d ∉ List.replicate n '.' := fun n hm => hd (List.eq_of_mem_replicate hm)
      simp [this, h4 d hd]

/-- Whatever splitting gives can be written down again. -/
theorem split_representable (leaf n : List Char) (x : Option (List Char)) (hs : '/' ∉ leaf)
    (hb : ¬ Bad leaf) (h : Reads leaf n x) : Representable n x := by
  have hsub : ∀ a k b, leaf = a ++ List.replicate k '.' ++ b → '/' ∉ a ∧ '/' ∉ b := by
    intro a k b e
    rw [e] at hs
    simp at hs
    exact ⟨hs.1, hs.2⟩
  have hall : ∃ c ∈ leaf, c ≠ '.' := by
    apply Classical.byContradiction
    intro hn
    apply hb
    left
    intro c hc
    exact Classical.byContradiction fun h => hn ⟨c, hc, h⟩
  have hne : ∀ a : List Char, a ≠ [] → a.getLast? ≠ some '.' → ∃ c ∈ a, c ≠ '.' := by
    intro a h1 h2
    cases h : a.getLast? with
    | none => exact absurd (List.getLast?_eq_none_iff.1 h) h1
    | some c => exact ⟨c, List.mem_of_getLast? h, fun hc => h2 (by rw [h, hc])⟩
  have key : ∀ a m, Means a m → '/' ∉ a → (∃ c ∈ a, c ≠ '.') → '/' ∉ m ∧ ∃ c ∈ m, c ≠ '.' := by
    intro a m hm h1 ⟨c, hc, hd⟩
    obtain ⟨-, -, -, h4⟩ := means_facts hm
    exact ⟨fun h => h1 ((h4 '/' (by decide)).2 h), c, (h4 c hd).1 hc, hd⟩
  cases h with
  | @triple a b n x hr hbn ma mb =>
    have ha : a ≠ [] := by
      rintro rfl
      exact hb (Or.inr (Or.inr (Or.inr ⟨b, hr⟩)))
    obtain ⟨s1, s2⟩ := hsub _ _ _ hr.1
    obtain ⟨k1, k2⟩ := key a n ma s1 (hne a ha hr.2.2.1)
    refine ⟨k1, k2, ?_, ?_⟩
    · rintro y hy
      cases hy
      obtain ⟨f1, -, -, f4⟩ := means_facts mb
      exact ⟨fun h => s2 ((f4 '/' (by decide)).2 h), fun h => hr.2.2.2 (f1.2 h)⟩
    · intro h
      exact absurd ((means_facts ma).2.1.2 h) hr.2.2.1
  | @unspecified a n hr ma =>
    have ha : a ≠ [] := by
      rintro rfl
      exact hb (Or.inr (Or.inr (Or.inr ⟨[], hr⟩)))
    obtain ⟨s1, s2⟩ := hsub _ _ _ hr.1
    obtain ⟨k1, k2⟩ := key a n ma s1 (hne a ha hr.2.2.1)
    refine ⟨k1, k2, by (intro y hy; cases hy), ?_⟩
    intro h
    exact absurd ((means_facts ma).2.1.2 h) hr.2.2.1
  | @single a b n x h3 hr ha hmax ma mb =>
    obtain ⟨s1, s2⟩ := hsub _ _ _ hr.1
    obtain ⟨k1, k2⟩ := key a n ma s1 (hne a ha hr.2.2.1)
    refine ⟨k1, k2, ?_, ?_⟩
    · rintro y hy
      cases hy
      obtain ⟨f1, -, -, f4⟩ := means_facts mb
      exact ⟨fun h => s2 ((f4 '/' (by decide)).2 h), fun h => hr.2.2.2 (f1.2 h)⟩
    · intro h
      exact absurd ((means_facts ma).2.1.2 h) hr.2.2.1
  | noExt h3 h1 hm hl =>
    obtain ⟨k1, k2⟩ := key _ _ hm hs hall
    refine ⟨k1, k2, ?_, fun _ => rfl⟩
    rintro y hy
    cases hy
    exact ⟨by simp, by simp⟩
  | none h3 h1 hm hl =>
    obtain ⟨k1, k2⟩ := key _ _ hm hs hall
    refine ⟨k1, k2, by (intro y hy; cases hy), ?_⟩
    intro h
    exact absurd ((means_facts hm).2.1.2 h) hl

/-- C26: printing what was parsed and parsing it again gives the same result: every name the user
can write, except for the ambiguous ones, survives. -/
theorem reparse_partial (v dir leaf n : List Char) (x : Option (List Char)) (hv : v ≠ [])
    (hl : IsLeaf v dir leaf) (hs : split v = .ok (dir ++ n) x) (ha : ¬ Ambiguous n) :
    ∃ w, combine (dir ++ n) x true = some w ∧ split w = split v := by
  have hb : ¬ Bad leaf := by
    intro hb
    obtain ⟨e, he⟩ := bad_is_error v dir leaf hv hl hb
    rw [he] at hs; cases hs
  have hr := ((split_iff_reads v dir leaf hv hl hb).2 n x).1 hs
  have := round_trip_partial dir n x true hl.2.2 (split_representable leaf n x hl.2.1 hb hr) ha
    (fun _ => Or.inl rfl)
  rw [hs]
  exact this

/-- C26 does not hold for every name: the name `a.b.` without an extension is written `a..b..`, but is
printed as `a.b..`, which is the name `a` with the extension `b.`. -/
theorem trailing_dot_not_round_trip :
    split "a..b..".toList = .ok "a.b.".toList (some []) ∧
    combine "a.b.".toList (some []) true = some "a.b..".toList ∧
    split "a.b..".toList = .ok "a".toList (some "b.".toList) := by
  refine ⟨by decide, by decide, by decide⟩

/-- Without the request to mark an unspecified extension a dot in the name is taken for it. -/
theorem unmarked_not_round_trip :
    combine "a.b".toList none false = some "a.b".toList ∧
    split "a.b".toList = .ok "a".toList (some "b".toList) := by
  refine ⟨by decide, by decide⟩

/-! Concrete cases. -/

example : IsLeaf "d.x/foo.bar..baz.c".toList "d.x/".toList "foo.bar..baz.c".toList := by
  refine ⟨by decide, by decide, by decide⟩

example : split "d.x/foo.bar..baz.c".toList = .ok "d.x/foo.bar.baz".toList (some "c".toList) := by
  decide

example : split "foo...bar.c".toList = .ok "foo".toList (some "bar.c".toList) := by decide

example : split "foo.c...".toList = .ok "foo.c".toList none := by decide

example : split ".profile".toList = .ok ".profile".toList none := by decide

example : split "foo.....c".toList = .err .invalidSequence := by decide

example : Bad "foo.....c".toList :=
  Or.inr (Or.inl ⟨5, "foo".toList, "c".toList, ⟨by decide, by decide, by decide, by decide⟩,
    by decide, by decide⟩)

example : Bad "a...b...c".toList :=
  Or.inr (Or.inr (Or.inl ⟨"a".toList, "b...c".toList, "a...b".toList, "c".toList,
    ⟨by decide, by decide, by decide, by decide⟩, ⟨by decide, by decide, by decide, by decide⟩,
    by decide⟩))

example : Representable "foo.b..r".toList (some "tar.gz".toList) := by
  refine ⟨by decide, ⟨'f', by decide, by decide⟩, ?_, by decide⟩
  intro x hx
  cases hx
  decide

example : ¬ Ambiguous "foo.b..r".toList := by
  rintro ⟨h, -⟩
  revert h; decide

example : combine "d/foo.b..r".toList (some "tar.gz".toList) true =
    some "d/foo.b....r...tar.gz".toList := by decide

example : split "d/foo.b....r...tar.gz".toList =
    .ok "d/foo.b..r".toList (some "tar.gz".toList) := by decide

end Verif.Name
