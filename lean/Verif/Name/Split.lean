import Verif.Name.Lemmas

/-! What `split` does, in terms of the sequences of dots. -/

namespace Verif.Name

theorem mem_run {l : List Char} {k : Nat} : (∃ a b, Run l k a b) ↔ .ds k ∈ toks l := by
  constructor
  · rintro ⟨a, b, h⟩; rw [toks_of_run h]; simp
  · intro h
    obtain ⟨A, B, hAB⟩ := List.append_of_mem h
    have hw := wf_toks l
    rw [hAB] at hw
    have hr := run_of_toks hw
    rw [← hAB, expand_toks] at hr
    exact ⟨_, _, hr⟩

theorem append_unique {α : Type} {x : α} {A B A' B' : List α} (h : A ++ x :: B = A' ++ x :: B')
    (hA : x ∉ A) (hB : x ∉ B) : A = A' ∧ B = B' := by
  induction A generalizing A' with
  | nil =>
    cases A' with
    | nil => simpa using h
    | cons a A' =>
      simp at h
      obtain ⟨-, h⟩ := h
      exfalso; apply hB; rw [h]; simp
  | cons a A ih =>
    cases A' with
    | nil =>
      simp at h
      exfalso; apply hA; rw [h.1]; simp
    | cons a' A' =>
      simp at h
      obtain ⟨h1, h2⟩ := ih h.2 (fun hx => hA (List.mem_cons_of_mem _ hx))
      exact ⟨by rw [h.1, h1], h2⟩

def isEven : Tok → Bool
  | .ds k => decide (k % 2 = 0)
  | .ch _ => false

def isDs : Tok → Bool
  | .ds _ => true
  | .ch _ => false

def Odd5 (k : Nat) : Prop := k % 2 = 1 ∧ k > 3

theorem scanT_plain (ts : List Tok) (hp : Plain ts) (base : Nat) (s : Scan)
    (h : s.edp ≠ none ∨ .ds 1 ∉ ts) :
    scanT base ts s = .ok { s with escaped := s.escaped || ts.any isEven,
                                   dotOnly := s.dotOnly && ts.all isDs } := by
  induction ts generalizing base with
  | nil => simp [scanT]
  | cons t ts ih =>
    have h' : s.edp ≠ none ∨ .ds 1 ∉ ts := h.imp id (fun h hc => h (List.mem_cons_of_mem _ hc))
    have ih := fun base => ih (plain_cons hp) base h'
    cases t with
    | ch c => simp [scanT, ih, isEven, isDs]
    | ds k =>
      simp only [scanT, ih]
      rcases hp k (by simp) with hk | hk
      · subst hk
        rcases h with h | h
        · simp [onDots, h, isEven, isDs]
        · exact absurd (by simp) h
      · simp [onDots, show k ≠ 3 by omega, show k ≠ 1 by omega, hk, isEven, isDs]

def start : Scan := { edp := none, edn := 0, escaped := false, dotOnly := true }

theorem scanT_triple (A B : List Tok) (hA : Plain A) (hB : Plain B) (base : Nat) :
    scanT base (A ++ .ds 3 :: B) start =
      .ok { edp := some (base + len A), edn := 3,
            escaped := (A ++ .ds 3 :: B).any isEven, dotOnly := (A ++ .ds 3 :: B).all isDs } := by
  rw [scanT_append]
  simp only [scanT]
  -- scanning B may find a single dot
  have hB' : ∃ s, scanT (base + len A + 3) B start = .ok s ∧ s.escaped = B.any isEven ∧
      s.dotOnly = B.all isDs ∧ s.edn ≠ 3 := by
    generalize base + len A + 3 = b
    clear hA
    induction B generalizing b with
    | nil => exact ⟨start, rfl, rfl, rfl, by decide⟩
    | cons t B ih =>
      cases t with
      | ch c =>
        obtain ⟨s, h1, h2, h3, h4⟩ := ih (plain_cons hB) (b + 1)
        exact ⟨{ s with dotOnly := false }, by simp only [scanT, h1], by simp [isEven, h2],
          by simp [isDs], h4⟩
      | ds k =>
        obtain ⟨s, h1, h2, h3, h4⟩ := ih (plain_cons hB) (b + k)
        simp only [scanT, h1]
        rcases hB k (by simp) with hk | hk
        · subst hk
          by_cases he : s.edp = none
          · exact ⟨{ s with edp := some b, edn := 1 }, by simp [onDots, he], by simp [isEven, h2],
              by simp [isDs, h3], by simp⟩
          · exact ⟨s, by simp [onDots, he], by simp [isEven, h2], by simp [isDs, h3], h4⟩
        · exact ⟨{ s with escaped := true },
            by simp [onDots, show k ≠ 3 by omega, show k ≠ 1 by omega, hk],
            by simp [isEven, hk], by simp [isDs, h3], h4⟩
  obtain ⟨s, h1, h2, h3, h4⟩ := hB'
  rw [h1]
  have : onDots 3 (base + len A) s = .ok { s with edp := some (base + len A), edn := 3 } := by
    simp [onDots, h4]
  simp only [this]
  rw [scanT_plain A hA base _ (Or.inl (by simp))]
  simp [h2, h3, isEven, isDs, Bool.or_comm, Bool.and_comm]

theorem scanT_single (A B : List Tok) (hA : Plain A) (hB : Plain B) (hs : .ds 1 ∉ B) (base : Nat) :
    scanT base (A ++ .ds 1 :: B) start =
      .ok { edp := some (base + len A), edn := 1,
            escaped := (A ++ .ds 1 :: B).any isEven, dotOnly := (A ++ .ds 1 :: B).all isDs } := by
  rw [scanT_append]
  simp only [scanT]
  rw [scanT_plain B hB _ _ (Or.inr hs)]
  simp only [onDots]
  simp only [show (1 : Nat) ≠ 3 by decide, if_false, if_true]
  rw [if_pos (show start.edp = none from rfl)]
  simp only
  rw [scanT_plain A hA base _ (Or.inl (by simp))]
  simp [start, isEven, isDs, Bool.or_comm, Bool.and_comm]

theorem scanT_none (ts : List Tok) (hp : Plain ts) (hs : .ds 1 ∉ ts) (base : Nat) :
    scanT base ts start =
      .ok { edp := none, edn := 0, escaped := ts.any isEven, dotOnly := ts.all isDs } := by
  rw [scanT_plain ts hp base _ (Or.inr hs)]
  simp [start]

/-- The scanner accepts only if there is no odd sequence longer than three and at most one triple. -/
theorem scanT_ok (ts : List Tok) (base : Nat) (s s' : Scan) (h : scanT base ts s = .ok s') :
    (∀ k, .ds k ∈ ts → ¬ Odd5 k) ∧
    (s.edp ≠ none ∧ s.edn = 3 → (.ds 3 ∉ ts) ∧ s'.edp ≠ none ∧ s'.edn = 3) ∧
    (.ds 3 ∈ ts → s'.edp ≠ none ∧ s'.edn = 3) ∧
    (∀ A B, ts = A ++ .ds 3 :: B → .ds 3 ∉ A ∧ .ds 3 ∉ B) := by
  induction ts generalizing base s' with
  | nil =>
    simp [scanT] at h; subst h
    exact ⟨by simp, fun h => ⟨by simp, h⟩, by simp, by simp⟩
  | cons t ts ih =>
    cases t with
    | ch c =>
      simp only [scanT] at h
      split at h
      · cases h
      · rename_i s1 h1
        cases h
        obtain ⟨i1, i2, i3, i4⟩ := ih _ _ h1
        refine ⟨by simpa using i1, by simpa using i2, by simpa using i3, ?_⟩
        intro A B hAB
        cases A with
        | nil => cases hAB
        | cons a A =>
          simp at hAB
          obtain ⟨rfl, hAB⟩ := hAB
          have := i4 A B hAB
          exact ⟨by simpa using this.1, this.2⟩
    | ds k =>
      simp only [scanT] at h
      split at h
      · cases h
      · rename_i s1 h1
        obtain ⟨i1, i2, i3, i4⟩ := ih _ _ h1
        unfold onDots at h
        split at h
        · rename_i hk
          subst hk
          split at h
          · cases h
          · rename_i hn
            cases h
            have hno : .ds 3 ∉ ts := fun hc => hn (i3 hc)
            refine ⟨?_, ?_, ?_, ?_⟩
            · intro k hk
              rcases List.mem_cons.1 hk with hk | hk
              · cases hk; rintro ⟨-, h⟩; omega
              · exact i1 k hk
            · intro hs; exact absurd (i2 hs).2 hn
            · intro _; simp
            · intro A B hAB
              cases A with
              | nil => simp at hAB; subst hAB; exact ⟨by simp, hno⟩
              | cons a A =>
                simp at hAB
                exfalso; apply hno; rw [hAB.2]; simp
        · rename_i hk3
          have key : (s'.edp = s1.edp ∧ s'.edn = s1.edn ∨ s1.edp = none) ∧ ¬ Odd5 k := by
            split at h
            · rename_i hk
              subst hk
              refine ⟨?_, by rintro ⟨-, h⟩; omega⟩
              split at h
              · rename_i he; exact Or.inr he
              · cases h; exact Or.inl ⟨rfl, rfl⟩
            · split at h
              · rename_i hk
                cases h
                exact ⟨Or.inl ⟨rfl, rfl⟩, by rintro ⟨h, -⟩; omega⟩
              · cases h
          have key2 : s1.edp ≠ none ∧ s1.edn = 3 → s'.edp ≠ none ∧ s'.edn = 3 := by
            rintro ⟨h1, h2⟩
            rcases key.1 with ⟨h3, h4⟩ | h3
            · rw [h3, h4]; exact ⟨h1, h2⟩
            · exact absurd h3 h1
          refine ⟨?_, ?_, ?_, ?_⟩
          · intro k' hk'
            rcases List.mem_cons.1 hk' with hk' | hk'
            · cases hk'; exact key.2
            · exact i1 k' hk'
          · intro hs
            refine ⟨?_, key2 (i2 hs).2⟩
            intro hc
            rcases List.mem_cons.1 hc with hc | hc
            · cases hc; exact hk3 rfl
            · exact (i2 hs).1 hc
          · intro hc
            rcases List.mem_cons.1 hc with hc | hc
            · cases hc; exact absurd rfl hk3
            · exact key2 (i3 hc)
          · intro A B hAB
            cases A with
            | nil => simp at hAB; exact absurd hAB.1 hk3
            | cons a A =>
              simp at hAB
              obtain ⟨rfl, hAB⟩ := hAB
              obtain ⟨j1, j2⟩ := i4 A B hAB
              refine ⟨?_, j2⟩
              intro hc
              rcases List.mem_cons.1 hc with hc | hc
              · cases hc; exact hk3 rfl
              · exact j1 hc

/-! ## `split` on a directory and tokens -/

theorem dir_scan {dir : List Char} (hd : dir = [] ∨ dir.getLast? = some '/') (s : Scan) :
    scan 0 dir.reverse s = .ok (s, dir.length) ∧ dir.reverse.head? ≠ some '.' := by
  rcases hd with rfl | hd
  · exact ⟨rfl, by simp⟩
  · rw [← List.head?_reverse] at hd
    have hlen : dir.length = dir.reverse.length := by simp
    rw [hlen]
    cases hr : dir.reverse with
    | nil => rw [hr] at hd; cases hd
    | cons c l =>
      rw [hr] at hd
      simp at hd
      subst hd
      simp [scan]

theorem split_toks {dir : List Char} (hd : dir = [] ∨ dir.getLast? = some '/') (ts : List Tok)
    (hw : WF ts) (hn : noSep ts) (hne : dir ++ expand ts ≠ []) :
    split (dir ++ expand ts) =
      match scanT dir.length ts start with
      | .error e => .err e
      | .ok s =>
        if s.dotOnly then .err .invalidName
        else if s.edp = some dir.length then
          if s.edn = 3 then .err .leadingTriple
          else finish (dir ++ expand ts) none s.edn s.escaped dir.length
        else finish (dir ++ expand ts) s.edp s.edn s.escaped dir.length := by
  unfold split
  rw [if_neg hne, List.reverse_append,
    scan_toks ts hw hn dir.reverse (Or.inr (dir_scan hd start).2)]
  simp only [List.length_reverse]
  change (match (match scanT dir.length ts start with
    | Except.error e => Except.error e
    | Except.ok s' => scan 0 dir.reverse s') with
    | Except.error e => _
    | Except.ok (s, p) => _) = _
  cases h : scanT dir.length ts start with
  | error e => rfl
  | ok s => simp only [(dir_scan hd s).1]

theorem not_even_singles {ts : List Tok} (hp : Plain ts) (h : ts.any isEven = false) (k : Nat)
    (hk : .ds k ∈ ts) : k = 1 := by
  rcases hp k hk with h1 | h1
  · exact h1
  · have : ts.any isEven = true := List.any_eq_true.2 ⟨_, hk, by simp [isEven, h1]⟩
    rw [this] at h; cases h

theorem expand_eq_nil {ts : List Tok} (h : WF ts) : expand ts = [] ↔ ts = [] :=
  ⟨fun hx => expand_inj h trivial hx, fun hx => by subst hx; rfl⟩

theorem finish_some (dir : List Char) (A B uA uB : List Tok) (k : Nat) (hk : k = 1 ∨ k = 3)
    (hw : WF (A ++ .ds k :: B)) (hA : Plain A) (hB : Plain B)
    (hua : unT A = some uA) (hub : unT B = some uB) :
    finish (dir ++ expand (A ++ .ds k :: B)) (some (dir.length + len A)) k
        ((A ++ .ds k :: B).any isEven) dir.length =
      .ok (dir ++ expand uA)
        (if B ≠ [] then some (expand uB) else if k = 1 then some [] else none) := by
  have wA := wf_left hw
  have wB := (wf_right hw).2.2
  have htake : (dir ++ expand (A ++ .ds k :: B)).take (dir.length + len A) = dir ++ expand A := by
    rw [expand_append, ← List.append_assoc]
    apply List.take_left'
    simp [len]
  have hdrop : (dir ++ expand (A ++ .ds k :: B)).drop (dir.length + len A + k) = expand B := by
    have : dir ++ expand (A ++ .ds k :: B) = (dir ++ expand A ++ List.replicate k '.') ++ expand B := by
      simp [expand_append, expand, Tok.text]
    rw [this]
    apply List.drop_left'
    simp [len]; omega
  have hcond : (dir.length + len A ≠ (dir ++ expand (A ++ .ds k :: B)).length - k) ↔ B ≠ [] := by
    rw [Ne, Ne, ← expand_eq_nil wB, ← List.length_eq_zero_iff]
    have : (expand (A ++ .ds k :: B)).length = len A + (k + (expand B).length) := by
      simp [expand_append, expand, Tok.text, len]
    rw [List.length_append, this]
    omega
  unfold finish
  simp only [htake, hdrop]
  cases he : (A ++ .ds k :: B).any isEven with
  | false =>
    rw [List.any_append, Bool.or_eq_false_iff] at he
    have heB : B.any isEven = false := by
      have := he.2
      rw [List.any_cons, Bool.or_eq_false_iff] at this
      exact this.2
    obtain ⟨u, h1, -, -, -, h5, -⟩ := unT_spec A wA hA
    rw [hua] at h1; cases h1
    obtain ⟨u, h1', -, -, -, h5', -⟩ := unT_spec B wB hB
    rw [hub] at h1'; cases h1'
    rw [h5 (not_even_singles hA he.1), h5' (not_even_singles hB heB)]
    simp only [Bool.not_false, if_true]
    by_cases hB' : B = []
    · rw [if_neg (fun h => (hcond.1 h) hB'), if_neg (show ¬ (B ≠ []) from fun h => h hB')]
    · rw [if_pos (hcond.2 hB'), if_pos hB']
  | true =>
    simp only [Bool.not_true, Bool.false_eq_true, if_false]
    have h1 : (dir ++ expand A).drop dir.length = expand A := by simp
    have h2 : (dir ++ expand A).take dir.length = dir := by simp
    rw [h1, h2, unescape_toks A wA, hua]
    simp only [Option.map_some]
    by_cases hB' : B = []
    · rw [if_neg (fun h => (hcond.1 h) hB'), if_neg (show ¬ (B ≠ []) from fun h => h hB')]
      rcases hk with hk | hk
      · subst hk; simp [unescape]
      · subst hk; simp
    · rw [if_pos (hcond.2 hB'), if_pos hB']
      simp only [unescape_toks B wB, hub, Option.map_some]

theorem finish_none (dir : List Char) (ts us : List Tok) (n : Nat) (hw : WF ts) (hp : Plain ts)
    (hu : unT ts = some us) (hne : ts ≠ []) :
    finish (dir ++ expand ts) none n (ts.any isEven) dir.length =
      .ok (dir ++ expand us) (if endDs ts then some [] else none) := by
  have hlast : ((dir ++ expand ts).getLast? = some '.') ↔ endDs ts = true := by
    rw [endDs_iff hw, List.getLast?_append]
    cases h : (expand ts).getLast? with
    | none =>
      rw [List.getLast?_eq_none_iff, expand_eq_nil hw] at h
      exact absurd h hne
    | some c => simp
  unfold finish
  simp only
  have hr : (if (dir ++ expand ts).getLast? = some '.' then some ([] : List Char) else none) =
      if endDs ts then some [] else none := by
    by_cases h : endDs ts = true
    · rw [if_pos (hlast.2 h), if_pos h]
    · rw [if_neg (fun hc => h (hlast.1 hc)), if_neg h]
  rw [hr]
  cases he : ts.any isEven with
  | false =>
    obtain ⟨u, h1, -, -, -, h5, -⟩ := unT_spec ts hw hp
    rw [hu] at h1; cases h1
    rw [h5 (not_even_singles hp he)]
    simp
  | true =>
    simp only [Bool.not_true, Bool.false_eq_true, if_false]
    have h1 : (dir ++ expand ts).drop dir.length = expand ts := by simp
    have h2 : (dir ++ expand ts).take dir.length = dir := by simp
    rw [h1, h2, unescape_toks ts hw, hu]
    simp only [Option.map_some]
    cases endDs ts with
    | true => simp [unescape]
    | false => simp

theorem means_unT {w l : List Char} (h : Means w l) :
    ∃ us, unT (toks w) = some us ∧ expand us = l ∧ Plain (toks w) := by
  induction h with
  | nil => exact ⟨[], rfl, rfl, by intro k hk; cases hk⟩
  | @char c w l hc _ ih =>
    obtain ⟨us, h1, h2, h3⟩ := ih
    have : toks (c :: w) = .ch c :: toks w := by simp [toks, hc]
    rw [this]
    refine ⟨.ch c :: us, by simp [unT, h1], by simp [expand, Tok.text, h2], ?_⟩
    intro k hk
    exact h3 k (by simpa using hk)
  | @dot w l hw _ ih =>
    obtain ⟨us, h1, h2, h3⟩ := ih
    have : toks ('.' :: w) = .ds 1 :: toks w := toks_dots 0 w hw
    rw [this]
    refine ⟨.ds 1 :: us, by simp [unT, h1], by simp [expand, Tok.text, h2], ?_⟩
    intro k hk
    rcases List.mem_cons.1 hk with hk | hk
    · cases hk; exact Or.inl rfl
    · exact h3 k hk
  | @dots k w l hk hw _ ih =>
    obtain ⟨us, h1, h2, h3⟩ := ih
    have : toks (List.replicate (2 * k) '.' ++ w) = .ds (2 * k) :: toks w := by
      have := toks_dots (2 * k - 1) w hw
      rwa [show 2 * k - 1 + 1 = 2 * k by omega] at this
    rw [this]
    refine ⟨.ds k :: us, ?_, by simp [expand, Tok.text, h2], ?_⟩
    · rw [unT, if_neg (by omega), if_pos (by omega), h1]
      simp
    · intro j hj
      rcases List.mem_cons.1 hj with hj | hj
      · cases hj; exact Or.inr (by omega)
      · exact h3 j hj

theorem all_ds_iff {ts : List Tok} (h : WF ts) :
    ts.all isDs = true ↔ ∀ c ∈ expand ts, c = '.' := by
  induction ts with
  | nil => simp [expand]
  | cons t ts ih =>
    cases t with
    | ch c =>
      simp [isDs, expand, Tok.text]
      intro hc; exact absurd hc h.1
    | ds k =>
      have := ih h.2.2
      simp only [List.all_cons, isDs, Bool.true_and, this, expand, Tok.text, List.mem_append]
      constructor
      · intro hx c hc
        rcases hc with hc | hc
        · exact (List.mem_replicate.1 hc).2
        · exact hx c hc
      · intro hx c hc; exact hx c (Or.inr hc)

theorem plain_of {ts : List Tok} (h5 : ∀ k, .ds k ∈ ts → ¬ Odd5 k) (h3 : .ds 3 ∉ ts) : Plain ts := by
  intro k hk
  have := h5 k hk
  unfold Odd5 at this
  by_cases hk3 : k = 3
  · subst hk3; exact absurd hk h3
  · omega

theorem exists_leaf (v : List Char) : ∃ dir leaf, IsLeaf v dir leaf := by
  induction v with
  | nil => exact ⟨[], [], rfl, by simp, Or.inl rfl⟩
  | cons c v ih =>
    obtain ⟨dir, leaf, h1, h2, h3⟩ := ih
    rcases h3 with rfl | h3
    · by_cases hc : c = '/'
      · exact ⟨[c], leaf, by simp [h1], h2, Or.inr (by simp [hc])⟩
      · refine ⟨[], c :: leaf, by simp [h1], ?_, Or.inl rfl⟩
        simp; exact ⟨fun h => hc h.symm, h2⟩
    · refine ⟨c :: dir, leaf, by simp [h1], h2, Or.inr ?_⟩
      cases dir with
      | nil => cases h3
      | cons d dir => simpa using h3

end Verif.Name
