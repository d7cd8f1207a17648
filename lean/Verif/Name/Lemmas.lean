import Verif.Name.Model
import Verif.Name.Spec

/-! Texts as lists of characters and sequences of dots. -/

namespace Verif.Name

inductive Tok where
  | ch (c : Char)
  | ds (k : Nat)
  deriving DecidableEq, Repr

def Tok.text : Tok → List Char
  | .ch c => [c]
  | .ds k => List.replicate k '.'

def expand : List Tok → List Char
  | [] => []
  | t :: ts => t.text ++ expand ts

def noDs : List Tok → Prop
  | .ds _ :: _ => False
  | _ => True

def WF : List Tok → Prop
  | [] => True
  | .ch c :: ts => c ≠ '.' ∧ WF ts
  | .ds k :: ts => k ≥ 1 ∧ noDs ts ∧ WF ts

def noSep : List Tok → Prop
  | [] => True
  | .ch c :: ts => c ≠ '/' ∧ noSep ts
  | .ds _ :: ts => noSep ts

def toks : List Char → List Tok
  | [] => []
  | c :: l =>
    if c = '.' then
      match toks l with
      | .ds k :: ts => .ds (k + 1) :: ts
      | ts => .ds 1 :: ts
    else .ch c :: toks l

theorem expand_append (a b : List Tok) : expand (a ++ b) = expand a ++ expand b := by
  induction a with
  | nil => rfl
  | cons t a ih => simp [expand, ih]

theorem expand_toks (l : List Char) : expand (toks l) = l := by
  induction l with
  | nil => rfl
  | cons c l ih =>
    simp only [toks]
    split
    · rename_i h; subst h
      split
      · rename_i k ts hts
        rw [hts] at ih
        simp [expand, Tok.text, List.replicate_succ] at ih ⊢
        exact ih
      · simp [expand, Tok.text, ih]
    · simp [expand, Tok.text, ih]

theorem wf_toks (l : List Char) : WF (toks l) := by
  induction l with
  | nil => trivial
  | cons c l ih =>
    simp only [toks]
    split
    · split
      · rename_i k ts hts
        rw [hts] at ih
        exact ⟨by omega, ih.2⟩
      · rename_i h
        refine ⟨by omega, ?_, ih⟩
        cases ht : toks l with
        | nil => trivial
        | cons t ts =>
          cases t with
          | ch c => trivial
          | ds k => exact absurd ht (h k ts)
    · rename_i h; exact ⟨h, ih⟩

theorem head_expand {ts : List Tok} (h : WF ts) : (expand ts).head? = some '.' ↔ ¬ noDs ts := by
  cases ts with
  | nil => simp [expand, noDs]
  | cons t ts =>
    cases t with
    | ch c => simp [expand, Tok.text, noDs]; exact h.1
    | ds k =>
      have : k ≥ 1 := h.1
      obtain ⟨k, rfl⟩ : ∃ m, k = m + 1 := ⟨k - 1, by omega⟩
      simp [expand, Tok.text, noDs, List.replicate_succ]

theorem toks_dots (k : Nat) (l : List Char) (h : l.head? ≠ some '.') :
    toks (List.replicate (k + 1) '.' ++ l) = .ds (k + 1) :: toks l := by
  have hl : ∀ k ts, toks l ≠ .ds k :: ts := by
    intro k ts hk
    have := expand_toks l
    have hw := wf_toks l
    rw [hk] at hw
    apply h
    rw [← this, hk, head_expand hw]
    exact id
  induction k with
  | zero =>
    simp only [List.replicate_succ, List.replicate_zero, List.cons_append, List.nil_append, toks,
      if_true]
  | succ k ih =>
    rw [List.replicate_succ, List.cons_append, toks, if_pos rfl, ih]

theorem toks_expand {ts : List Tok} (h : WF ts) : toks (expand ts) = ts := by
  induction ts with
  | nil => rfl
  | cons t ts ih =>
    cases t with
    | ch c => simp [expand, Tok.text, toks, h.1, ih h.2]
    | ds k =>
      obtain ⟨k, rfl⟩ : ∃ m, k = m + 1 := ⟨k - 1, by have := h.1; omega⟩
      show toks (List.replicate (k + 1) '.' ++ expand ts) = _
      rw [toks_dots, ih h.2.2]
      rw [Ne, head_expand h.2.2]
      exact fun hc => hc h.2.1

theorem expand_inj {a b : List Tok} (ha : WF a) (hb : WF b) (h : expand a = expand b) : a = b := by
  rw [← toks_expand ha, ← toks_expand hb, h]

def len (ts : List Tok) : Nat := (expand ts).length

theorem len_cons_ch (c : Char) (ts : List Tok) : len (.ch c :: ts) = len ts + 1 := by
  simp [len, expand, Tok.text]

theorem len_cons_ds (k : Nat) (ts : List Tok) : len (.ds k :: ts) = k + len ts := by
  simp [len, expand, Tok.text]

theorem len_append (a b : List Tok) : len (a ++ b) = len a + len b := by
  simp [len, expand_append]

theorem noSep_iff {ts : List Tok} : noSep ts ↔ '/' ∉ expand ts := by
  induction ts with
  | nil => simp [noSep, expand]
  | cons t ts ih =>
    cases t with
    | ch c =>
      simp only [noSep, ih, expand, Tok.text, List.mem_append, List.mem_singleton, not_or]
      exact and_congr ⟨fun h e => h e.symm, fun h e => h e.symm⟩ Iff.rfl
    | ds k =>
      simp only [noSep, ih, expand, Tok.text, List.mem_append, List.mem_replicate, not_or]
      constructor
      · intro h; exact ⟨by rintro ⟨-, h⟩; exact absurd h (by decide), h⟩
      · exact fun h => h.2

/-- Whether the last token is a sequence of dots. -/
def endDs : List Tok → Bool
  | [] => false
  | [.ds _] => true
  | [.ch _] => false
  | _ :: t :: ts => endDs (t :: ts)

theorem endDs_iff {ts : List Tok} (h : WF ts) : endDs ts = true ↔ (expand ts).getLast? = some '.' := by
  induction ts with
  | nil => simp [endDs, expand]
  | cons t ts ih =>
    have hw : WF ts := by
      cases t with
      | ch c => exact h.2
      | ds k => exact h.2.2
    have ih := ih hw
    cases ts with
    | nil =>
      cases t with
      | ch c => simp [endDs, expand, Tok.text]; exact h.1
      | ds k =>
        obtain ⟨k, rfl⟩ : ∃ m, k = m + 1 := ⟨k - 1, by have := h.1; omega⟩
        simp [endDs, expand, Tok.text, List.getLast?_replicate]
    | cons t' ts =>
      have hne : expand (t' :: ts) ≠ [] := by
        cases t' with
        | ch c => simp [expand, Tok.text]
        | ds k =>
          obtain ⟨k, rfl⟩ : ∃ m, k = m + 1 := ⟨k - 1, by have := hw.1; omega⟩
          simp [expand, Tok.text, List.replicate_succ]
      have he : endDs (t :: t' :: ts) = endDs (t' :: ts) := by
        cases t <;> rfl
      rw [he, ih]
      show _ ↔ (t.text ++ expand (t' :: ts)).getLast? = _
      rw [List.getLast?_append]
      cases hl : (expand (t' :: ts)).getLast? with
      | none => exact absurd (List.getLast?_eq_none_iff.1 hl) hne
      | some x => simp

theorem wf_append {a b : List Tok} (ha : WF a) (hb : WF b) (h : endDs a = false ∨ noDs b) :
    WF (a ++ b) := by
  induction a with
  | nil => exact hb
  | cons t a ih =>
    have h' : endDs a = false ∨ noDs b := by
      rcases h with h | h
      · cases a with
        | nil => exact Or.inl rfl
        | cons t' a =>
          left
          cases t <;> exact h
      · exact Or.inr h
    cases t with
    | ch c => exact ⟨ha.1, ih ha.2 h'⟩
    | ds k =>
      refine ⟨ha.1, ?_, ih ha.2.2 h'⟩
      cases a with
      | nil =>
        rcases h with h | h
        · cases h
        · exact h
      | cons t' a =>
        have := ha.2.1
        cases t' with
        | ch c => trivial
        | ds k => exact this

theorem wf_left {a b : List Tok} (h : WF (a ++ b)) : WF a := by
  induction a with
  | nil => trivial
  | cons t a ih =>
    cases t with
    | ch c => exact ⟨h.1, ih h.2⟩
    | ds k =>
      refine ⟨h.1, ?_, ih h.2.2⟩
      cases a with
      | nil => trivial
      | cons t' a =>
        have := h.2.1
        cases t' with
        | ch c => trivial
        | ds k => exact this

theorem wf_right {a b : List Tok} (h : WF (a ++ b)) : WF b := by
  induction a with
  | nil => exact h
  | cons t a ih =>
    cases t with
    | ch c => exact ih h.2
    | ds k => exact ih h.2.2

theorem wf_ds_left {a b : List Tok} {k : Nat} (h : WF (a ++ .ds k :: b)) : endDs a = false := by
  induction a with
  | nil => rfl
  | cons t a ih =>
    have hr : WF (a ++ .ds k :: b) := by
      cases t with
      | ch c => exact h.2
      | ds k => exact h.2.2
    cases a with
    | nil =>
      cases t with
      | ch c => rfl
      | ds k => exact absurd h.2.1 id
    | cons t' a =>
      have := ih hr
      cases t <;> exact this

theorem wf_ds_right {a b : List Tok} {k : Nat} (h : WF (a ++ .ds k :: b)) : noDs b :=
  (wf_right h).2.1

/-! ## Sequences of dots -/

theorem run_of_toks {a b : List Tok} {k : Nat} (h : WF (a ++ .ds k :: b)) :
    Run (expand (a ++ .ds k :: b)) k (expand a) (expand b) := by
  have hr := wf_right h
  refine ⟨?_, hr.1, ?_, ?_⟩
  · simp [expand_append, expand, Tok.text]
  · intro hc
    rw [← endDs_iff (wf_left h), wf_ds_left h] at hc
    cases hc
  · rw [Ne, head_expand hr.2.2]
    exact fun hc => hc hr.2.1

theorem toks_of_run {l a b : List Char} {k : Nat} (h : Run l k a b) :
    toks l = toks a ++ .ds k :: toks b := by
  obtain ⟨h1, h2, h3, h4⟩ := h
  have hw : WF (toks a ++ .ds k :: toks b) := by
    apply wf_append (wf_toks a)
    · refine ⟨h2, ?_, wf_toks b⟩
      have := head_expand (wf_toks b)
      rw [expand_toks] at this
      by_cases hn : noDs (toks b)
      · exact hn
      · exact absurd (this.2 hn) h4
    · left
      cases he : endDs (toks a) with
      | false => rfl
      | true =>
        rw [endDs_iff (wf_toks a), expand_toks] at he
        exact absurd he h3
  rw [← toks_expand hw]
  congr 1
  rw [h1]
  simp [expand_append, expand, Tok.text, expand_toks]

/-! ## The scanner -/

theorem dots_replicate (k : Nat) (l : List Char) (h : l.head? ≠ some '.') :
    dots (List.replicate k '.' ++ l) = k := by
  induction k with
  | zero =>
    cases l with
    | nil => rfl
    | cons c l =>
      have : c ≠ '.' := by intro hc; subst hc; exact h rfl
      simp [dots, this]
  | succ k ih => simp [List.replicate_succ, dots, ih]

theorem scan_skip (k : Nat) (x l : List Char) (hx : x.length = k) (s : Scan) :
    scan k (x ++ l) s = scan 0 l s := by
  induction k generalizing x with
  | zero =>
    have : x = [] := List.length_eq_zero_iff.1 hx
    subst this; rfl
  | succ k ih =>
    cases x with
    | nil => cases hx
    | cons c x => simpa [scan] using ih x (by simpa using hx)

theorem scan_run (k : Nat) (l : List Char) (h : l.head? ≠ some '.') (s : Scan) :
    scan 0 (List.replicate (k + 1) '.' ++ l) s =
      match onDots (k + 1) l.length s with
      | .error e => .error e
      | .ok s' => scan 0 l s' := by
  rw [List.replicate_succ, List.cons_append, scan, if_pos rfl]
  simp only [dots_replicate k l h]
  have : (List.replicate k '.' ++ l).length + 1 - (k + 1) = l.length := by simp
  rw [this]
  cases onDots (k + 1) l.length s with
  | error e => rfl
  | ok s' => exact scan_skip k _ l (by simp) _

def scanT (base : Nat) : List Tok → Scan → Except Err Scan
  | [], s => .ok s
  | .ch _ :: ts, s =>
    match scanT (base + 1) ts s with
    | .error e => .error e
    | .ok s' => .ok { s' with dotOnly := false }
  | .ds k :: ts, s =>
    match scanT (base + k) ts s with
    | .error e => .error e
    | .ok s' => onDots k base s'

theorem scan_toks (ts : List Tok) (hw : WF ts) (hn : noSep ts) (tail : List Char)
    (hc : noDs ts ∨ tail.head? ≠ some '.') (s : Scan) :
    scan 0 ((expand ts).reverse ++ tail) s =
      match scanT tail.length ts s with
      | .error e => .error e
      | .ok s' => scan 0 tail s' := by
  induction ts generalizing tail with
  | nil => rfl
  | cons t ts ih =>
    cases t with
    | ch c =>
      have : (expand (.ch c :: ts)).reverse ++ tail = (expand ts).reverse ++ (c :: tail) := by
        simp [expand, Tok.text]
      rw [this, ih hw.2 hn.2 (c :: tail) (Or.inr (by simp; exact hw.1))]
      simp only [scanT, List.length_cons]
      cases scanT (tail.length + 1) ts s with
      | error e => rfl
      | ok s' => simp only [scan, if_neg hw.1, if_neg hn.1]
    | ds k =>
      have ht : tail.head? ≠ some '.' := by
        rcases hc with hc | hc
        · exact absurd hc id
        · exact hc
      have : (expand (.ds k :: ts)).reverse ++ tail =
          (expand ts).reverse ++ (List.replicate k '.' ++ tail) := by
        simp [expand, Tok.text]
      rw [this, ih hw.2.2 hn _ (Or.inl hw.2.1)]
      simp only [scanT, List.length_append, List.length_replicate]
      rw [Nat.add_comm k]
      cases scanT (tail.length + k) ts s with
      | error e => rfl
      | ok s' =>
        obtain ⟨k, rfl⟩ : ∃ m, k = m + 1 := ⟨k - 1, by have := hw.1; omega⟩
        simp only
        rw [scan_run k tail ht]

theorem scanT_append (a b : List Tok) (base : Nat) (s : Scan) :
    scanT base (a ++ b) s =
      match scanT (base + len a) b s with
      | .error e => .error e
      | .ok s' => scanT base a s' := by
  induction a generalizing base with
  | nil =>
    simp only [List.nil_append, scanT]
    have : base + len [] = base := rfl
    rw [this]
    cases scanT base b s <;> rfl
  | cons t a ih =>
    cases t with
    | ch c =>
      simp only [List.cons_append, scanT, ih]
      rw [len_cons_ch, show base + (len a + 1) = base + 1 + len a by omega]
      cases scanT (base + 1 + len a) b s <;> rfl
    | ds k =>
      simp only [List.cons_append, scanT, ih]
      rw [len_cons_ds, Nat.add_assoc]
      cases scanT (base + (k + len a)) b s <;> rfl

/-! ## Unescaping -/

theorem unescape_skip (k : Nat) (x l : List Char) (hx : x.length = k) :
    unescape k (x ++ l) = unescape 0 l := by
  induction k generalizing x with
  | zero =>
    have : x = [] := List.length_eq_zero_iff.1 hx
    subst this; rfl
  | succ k ih =>
    cases x with
    | nil => cases hx
    | cons c x => simpa [unescape] using ih x (by simpa using hx)

def unT : List Tok → Option (List Tok)
  | [] => some []
  | .ch c :: ts => (unT ts).map (.ch c :: ·)
  | .ds k :: ts =>
    if k = 1 then (unT ts).map (.ds 1 :: ·)
    else if k % 2 = 0 then (unT ts).map (.ds (k / 2) :: ·)
    else none

theorem unescape_toks (ts : List Tok) (hw : WF ts) :
    unescape 0 (expand ts) = (unT ts).map expand := by
  induction ts with
  | nil => rfl
  | cons t ts ih =>
    cases t with
    | ch c =>
      simp only [expand, Tok.text, List.cons_append, List.nil_append, unescape, if_neg hw.1, unT,
        ih hw.2, Option.map_map]
      rfl
    | ds k =>
      obtain ⟨k, rfl⟩ : ∃ m, k = m + 1 := ⟨k - 1, by have := hw.1; omega⟩
      have hh : (expand ts).head? ≠ some '.' := by
        rw [Ne, head_expand hw.2.2]; exact fun hc => hc hw.2.1
      show unescape 0 (List.replicate (k + 1) '.' ++ expand ts) = _
      rw [List.replicate_succ, List.cons_append, unescape, if_pos rfl]
      simp only [dots_replicate k _ hh, unT]
      by_cases h1 : k + 1 = 1
      · have hk : k = 0 := by omega
        subst hk
        simp only [if_true, List.replicate_zero, List.nil_append, ih hw.2.2, Option.map_map]
        rfl
      · rw [if_neg h1, if_neg h1]
        by_cases h2 : (k + 1) % 2 = 0
        · rw [if_pos h2, if_pos h2]
          rw [unescape_skip (k + 1 - 1) _ _ (by simp), ih hw.2.2, Option.map_map, Option.map_map]
          congr 1
          funext l
          simp only [Function.comp, expand, Tok.text]
          rw [show k + 1 - (k + 1) / 2 = (k + 1) / 2 by omega]
        · rw [if_neg h2, if_neg h2]; rfl

theorem head_noDs {ts : List Tok} (h : WF ts) : (expand ts).head? ≠ some '.' ↔ noDs ts := by
  rw [Ne, head_expand h]
  exact Classical.not_not

/-- Sequences of dots a text may contain: single or even. -/
def Plain (ts : List Tok) : Prop := ∀ k, .ds k ∈ ts → k = 1 ∨ k % 2 = 0

theorem plain_cons {t : Tok} {ts : List Tok} : Plain (t :: ts) → Plain ts :=
  fun h k hk => h k (List.mem_cons_of_mem _ hk)

theorem unT_spec (ts : List Tok) (hw : WF ts) (hp : Plain ts) :
    ∃ us, unT ts = some us ∧ WF us ∧ (noDs ts ↔ noDs us) ∧ Means (expand ts) (expand us) ∧
      ((∀ k, .ds k ∈ ts → k = 1) → us = ts) ∧ endDs us = endDs ts ∧ (us = [] ↔ ts = []) ∧
      (noSep ts → noSep us) ∧ ((∃ c, .ch c ∈ ts) → ∃ c, .ch c ∈ us) := by
  induction ts with
  | nil => exact ⟨[], rfl, trivial, Iff.rfl, .nil, fun _ => rfl, rfl, Iff.rfl, id, id⟩
  | cons t ts ih =>
    have hend : ∀ (x y : Tok) (a b : List Tok), endDs a = endDs b → (a = [] ↔ b = []) →
        ((∃ c, x = .ch c) ↔ (∃ c, y = .ch c)) → endDs (x :: a) = endDs (y :: b) := by
      intro x y a b h1 h2 h3
      cases a with
      | nil =>
        have : b = [] := h2.1 rfl
        subst this
        cases x <;> cases y <;> simp_all [endDs]
      | cons a0 a =>
        cases b with
        | nil => exact absurd (h2.2 rfl) (by simp)
        | cons b0 b => cases x <;> cases y <;> exact h1
    cases t with
    | ch c =>
      obtain ⟨us, h1, h2, h3, h4, h5, h6, h7, h8, h9⟩ := ih hw.2 (plain_cons hp)
      refine ⟨.ch c :: us, by simp [unT, h1], ⟨hw.1, h2⟩, Iff.rfl, ?_, ?_, ?_, ?_, ?_, ?_⟩
      · exact .char hw.1 h4
      · intro h; rw [h5 (fun k hk => h k (List.mem_cons_of_mem _ hk))]
      · exact hend _ _ _ _ h6 h7 Iff.rfl
      · simp
      · exact fun h => ⟨h.1, h8 h.2⟩
      · intro _; exact ⟨c, by simp⟩
    | ds k =>
      obtain ⟨us, h1, h2, h3, h4, h5, h6, h7, h8, h9⟩ := ih hw.2.2 (plain_cons hp)
      have hhd : (expand ts).head? ≠ some '.' := (head_noDs hw.2.2).2 hw.2.1
      rcases hp k (by simp) with hk | hk
      · subst hk
        refine ⟨.ds 1 :: us, by simp [unT, h1], ⟨by omega, h3.1 hw.2.1, h2⟩, Iff.rfl, ?_, ?_, ?_, ?_,
          ?_, ?_⟩
        · exact .dot hhd h4
        · intro h; rw [h5 (fun k hk => h k (List.mem_cons_of_mem _ hk))]
        · exact hend _ _ _ _ h6 h7 Iff.rfl
        · simp
        · exact h8
        · rintro ⟨c, hc⟩
          have : Tok.ch c ∈ ts := by simpa using hc
          obtain ⟨d, hd⟩ := h9 ⟨c, this⟩
          exact ⟨d, List.mem_cons_of_mem _ hd⟩
      · have hk1 := hw.1
        refine ⟨.ds (k / 2) :: us, ?_, ⟨by omega, h3.1 hw.2.1, h2⟩, Iff.rfl, ?_, ?_, ?_, ?_,
          ?_, ?_⟩
        · rw [unT, if_neg (by omega), if_pos hk, h1]; rfl
        · have : k = 2 * (k / 2) := by omega
          show Means (List.replicate k '.' ++ expand ts) (List.replicate (k / 2) '.' ++ expand us)
          have hm := Means.dots (k := k / 2) (by omega) hhd h4
          rwa [← this] at hm
        · intro h; have := h k (by simp); omega
        · exact hend _ _ _ _ h6 h7 (by constructor <;> rintro ⟨c, hc⟩ <;> cases hc)
        · simp
        · exact h8
        · rintro ⟨c, hc⟩
          have : Tok.ch c ∈ ts := by simpa using hc
          obtain ⟨d, hd⟩ := h9 ⟨c, this⟩
          exact ⟨d, List.mem_cons_of_mem _ hd⟩

/-! ## Escaping -/

theorem escape_skip (name : Bool) (n k : Nat) (x l : List Char) (hx : x.length = k) :
    escape name n k (x ++ l) = (escape name n 0 l).map fun (o, r) => (x ++ o, r) := by
  induction k generalizing x with
  | zero =>
    have : x = [] := List.length_eq_zero_iff.1 hx
    subst this
    cases h : escape name n 0 l with
    | none => simp [h]
    | some r => simp [h]
  | succ k ih =>
    cases x with
    | nil => cases hx
    | cons c x =>
      rw [List.cons_append, escape, ih x (by simpa using hx), Option.map_map]
      rfl

def isLead (tail : List Char) : Bool := decide (tail = []) || decide (tail.head? = some '/')

def escT (name : Bool) : Bool → List Tok → List Tok × Bool
  | _, [] => ([], false)
  | _, .ch c :: ts => (.ch c :: (escT name false ts).1, (escT name false ts).2)
  | lead, .ds k :: ts =>
    (.ds (if k ≠ 1 ∨ (name = true ∧ ts = []) then 2 * k else k) :: (escT name false ts).1,
     (decide (k = 1) && !(name && decide (ts = [])) && !(name && lead)) || (escT name false ts).2)

theorem rep2 (k : Nat) (o : List Char) :
    List.replicate (k + 1) '.' ++ '.' :: (List.replicate k '.' ++ o) =
      List.replicate (2 * (k + 1)) '.' ++ o := by
  have : '.' :: (List.replicate k '.' ++ o) = List.replicate (k + 1) '.' ++ o := rfl
  rw [this, ← List.append_assoc, List.replicate_append_replicate]
  congr 2
  omega

theorem escape_toks (name : Bool) (ts : List Tok) (hw : WF ts) (hn : noSep ts) (tail : List Char)
    (hc : noDs ts ∨ tail.head? ≠ some '.') (n : Nat) (hlen : n = tail.length + len ts) :
    escape name n 0 ((expand ts).reverse ++ tail) =
      (escape name n 0 tail).map fun (o, r) =>
        ((expand (escT name (isLead tail) ts).1).reverse ++ o, (escT name (isLead tail) ts).2 || r) := by
  induction ts generalizing tail with
  | nil =>
    cases h : escape name n 0 tail with
    | none => simp [expand, h]
    | some r => simp [expand, h, escT]
  | cons t ts ih =>
    cases t with
    | ch c =>
      have he : (expand (.ch c :: ts)).reverse ++ tail = (expand ts).reverse ++ (c :: tail) := by
        simp [expand, Tok.text]
      have hl : isLead (c :: tail) = false := by simp [isLead]; exact hn.1
      rw [he, ih hw.2 hn.2 (c :: tail) (Or.inr (by simp; exact hw.1))
        (by rw [hlen, len_cons_ch]; simp; omega), hl]
      simp only [escape, if_neg hw.1, if_neg hn.1, Option.map_map]
      congr 1
      funext ⟨o, r⟩
      simp [escT, expand, Tok.text, Function.comp]
    | ds k =>
      have ht : tail.head? ≠ some '.' := by
        rcases hc with hc | hc
        · exact absurd hc id
        · exact hc
      have he : (expand (.ds k :: ts)).reverse ++ tail =
          (expand ts).reverse ++ (List.replicate k '.' ++ tail) := by
        simp [expand, Tok.text]
      obtain ⟨k, rfl⟩ : ∃ m, k = m + 1 := ⟨k - 1, by have := hw.1; omega⟩
      have hl : isLead (List.replicate (k + 1) '.' ++ tail) = false := by
        simp [isLead, List.replicate_succ]
      rw [he, ih hw.2.2 hn _ (Or.inl hw.2.1)
        (by rw [hlen, len_cons_ds]; simp; omega), hl]
      rw [List.replicate_succ, List.cons_append, escape, if_pos rfl]
      simp only [dots_replicate k tail ht]
      have h1 : (List.replicate k '.' ++ tail).length + 1 - (k + 1) = tail.length := by simp
      have h2 : (List.replicate k '.' ++ tail).drop (k + 1 - 1) = tail := by
        simp
      rw [h1, h2, escape_skip name n (k + 1 - 1) _ _ (by simp), Option.map_map, Option.map_map]
      have htr : (tail.length = n - 1) ↔ (k = 0 ∧ ts = []) := by
        rw [hlen, len_cons_ds]
        constructor
        · intro h
          have h0 : len ts = 0 := by omega
          refine ⟨by omega, ?_⟩
          have hx : expand ts = [] := List.length_eq_zero_iff.1 h0
          exact expand_inj hw.2.2 trivial hx
        · rintro ⟨rfl, rfl⟩
          simp [len, expand]
      congr 1
      funext ⟨o, r⟩
      simp only [Function.comp, escT, expand, Tok.text, isLead]
      congr 1
      · by_cases hk : k = 0
        · subst hk
          cases name with
          | false => simp
          | true =>
            by_cases hts : ts = []
            · have : tail.length = n - 1 := htr.2 ⟨rfl, hts⟩
              simp [this, hts, List.replicate_succ]
            · have : ¬ tail.length = n - 1 := fun h => hts (htr.1 h).2
              simp [this, hts]
        · have e1 : (decide (k + 1 ≠ 1)) = true := by simp; omega
          have e2 : (k + 1 ≠ 1 ∨ name = true ∧ ts = []) := Or.inl (by omega)
          rw [e1, if_pos e2]
          simp only [Bool.true_or, if_true, List.reverse_append, List.reverse_replicate,
            List.append_assoc]
          congr 1
          exact rep2 k o
      · by_cases hk : k = 0
        · subst hk
          cases name with
          | false => simp [Bool.or_comm]
          | true =>
            by_cases hts : ts = []
            · have : tail.length = n - 1 := htr.2 ⟨rfl, hts⟩
              simp [this, hts]
            · have : ¬ tail.length = n - 1 := fun h => hts (htr.1 h).2
              simp only [this, hts]
              generalize (escT true false ts).2 = x
              cases r <;> cases x <;> simp
        · simp [hk]

end Verif.Name
