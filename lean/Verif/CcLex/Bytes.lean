import Verif.CcLex.Main

/-!
# C and C++ tokens: what the bytes of the checksum determine, and spacing
-/

namespace Verif.CcLex

/-- What of an item is in the checksum: the line and the text, or the file. -/
inductive Entry where
  | text (line : UInt64) (t : Str)
  | file (s : Str)
deriving DecidableEq

/-- The entry of an item. -/
def Item.entry : Item → Entry
  | .tok l _ _ t => .text l t
  | .hash l => .text l ['#']
  | .arg l t => .text l t
  | .file s => .file s

/-- The bytes of an entry. -/
def Entry.bytes : Entry → List Nat
  | .text l t => CcLex.bytes 8 l.toNat ++ t.map Char.toNat
  | .file s => s.map Char.toNat ++ [0]

/-- The bytes of what is hashed. -/
def stream (hs : List Hashed) : List Nat := hs.flatMap Hashed.bytes

/-- The text has no zero characters. -/
def NoNul (s : Str) : Prop := ∀ c ∈ s, c.toNat ≠ 0

theorem stream_chars (t : Str) : stream (t.map .char) = t.map Char.toNat := by
  induction t with
  | nil => rfl
  | cons c t ih =>
    rw [List.map_cons, List.map_cons, ← ih]
    rfl

theorem stream_append (a b : List Hashed) : stream (a ++ b) = stream a ++ stream b := List.flatMap_append

theorem stream_item (i : Item) : stream i.hashed = i.entry.bytes := by
  cases i with
  | tok l f k t =>
    show Hashed.bytes (.line l) ++ stream (t.map .char) = _
    rw [stream_chars]; rfl
  | hash l => rfl
  | arg l t =>
    show Hashed.bytes (.line l) ++ stream (t.map .char) = _
    rw [stream_chars]; rfl
  | file s => simp [stream, Item.hashed, Hashed.bytes, Item.entry, Entry.bytes]

theorem stream_items (is : List Item) : stream (hashes is) = (is.map Item.entry).flatMap Entry.bytes := by
  induction is with
  | nil => rfl
  | cons i is ih =>
    rw [hashes_cons, stream_append, stream_item, ih, List.map_cons, List.flatMap_cons]

/-- Entries in which a file is only after a `#` or `line`. -/
inductive Grouped : List Entry → Prop
  | nil : Grouped []
  | text {l : UInt64} {t : Str} {es : List Entry} : l.toNat < 2 ^ 24 → t ≠ [] → NoNul t → Grouped es →
      Grouped (.text l t :: es)
  | file {l : UInt64} {t s : Str} {es : List Entry} : l.toNat < 2 ^ 24 → t = ['#'] ∨ t = "line".toList →
      NoNul s → Grouped es → Grouped (.text l t :: .file s :: es)

theorem Grouped.append {a b : List Entry} (ha : Grouped a) (hb : Grouped b) : Grouped (a ++ b) := by
  induction ha with
  | nil => exact hb
  | text h1 h2 h3 _ ih => exact .text h1 h2 h3 ih
  | file h1 h2 h3 _ ih => exact .file h1 h2 h3 ih

theorem bytes_small {n : Nat} (h : n < 2 ^ 24) :
    CcLex.bytes 8 n = [n % 256, n / 256 % 256, n / 65536 % 256, 0, 0, 0, 0, 0] := by
  have e1 : n / 256 / 256 = n / 65536 := by rw [Nat.div_div_eq_div_mul]
  have e2 : n / 65536 / 256 = 0 := by
    rw [Nat.div_div_eq_div_mul]
    exact Nat.div_eq_of_lt h
  simp [CcLex.bytes, e1, e2]

theorem bytes_small_inj {m n : Nat} (hm : m < 2 ^ 24) (hn : n < 2 ^ 24) (h : CcLex.bytes 8 m = CcLex.bytes 8 n) :
    m = n := by
  rw [bytes_small hm, bytes_small hn] at h
  simp only [List.cons.injEq, and_true] at h
  omega

theorem toNat_inj {s t : Str} (h : s.map Char.toNat = t.map Char.toNat) : s = t := by
  induction s generalizing t with
  | nil => cases t with
    | nil => rfl
    | cons => simp at h
  | cons c s ih =>
    cases t with
    | nil => simp at h
    | cons d t =>
      simp only [List.map_cons, List.cons.injEq] at h
      rw [ih h.2, Char.toNat_inj.1 h.1]

/-- What follows an entry: nothing, or a line and a character. -/
def Tail (r : List Nat) : Prop := r = [] ∨ ∃ a b c d r', r = a :: b :: c :: 0 :: 0 :: 0 :: 0 :: 0 :: d :: r' ∧ d ≠ 0

theorem nul_map {t : Str} (h : NoNul t) : ∀ n ∈ t.map Char.toNat, n ≠ 0 := by
  intro n hn
  obtain ⟨c, hc, rfl⟩ := List.mem_map.1 hn
  exact h c hc

theorem Grouped.tail {es : List Entry} (h : Grouped es) : Tail (es.flatMap Entry.bytes) := by
  have key : ∀ {l : UInt64} {t : Str} {r : List Nat}, l.toNat < 2 ^ 24 → t ≠ [] → NoNul t →
      Tail (Entry.bytes (.text l t) ++ r) := by
    intro l t r h1 h2 h3
    refine .inr ?_
    rw [show Entry.bytes (.text l t) = CcLex.bytes 8 l.toNat ++ t.map Char.toNat from rfl, bytes_small h1]
    cases t with
    | nil => exact absurd rfl h2
    | cons c t => exact ⟨_, _, _, _, _, rfl, h3 c List.mem_cons_self⟩
  cases h with
  | nil => exact .inl rfl
  | text h1 h2 h3 _ => rw [List.flatMap_cons]; exact key h1 h2 h3
  | file h1 h2 _ _ =>
    rw [List.flatMap_cons]
    refine key h1 ?_ ?_
    · rcases h2 with rfl | rfl <;> decide
    · rcases h2 with rfl | rfl <;> (unfold NoNul; decide)

/-- One split is shorter than the other. -/
theorem split_le {a b r s : List Nat} (h : a ++ r = b ++ s) (hl : a.length ≤ b.length) :
    ∃ x, b = a ++ x ∧ r = x ++ s := by
  obtain ⟨x, rfl⟩ : ∃ x, b = a ++ x := by
    refine ⟨b.drop a.length, ?_⟩
    have := congrArg (List.take a.length) h
    rw [List.take_left, List.take_append_of_le_length hl] at this
    conv => lhs; rw [← List.take_append_drop a.length b, ← this]
  refine ⟨x, rfl, ?_⟩
  rw [List.append_assoc] at h
  exact List.append_cancel_left h

/-- A text does not extend into the line that follows. -/
theorem no_extend {x r s : List Nat} (hx : ∀ n ∈ x, n ≠ 0) (hr : Tail r) (hs : Tail s) (h : r = x ++ s) : x = [] := by
  rcases hr with rfl | ⟨a, b, c, d, r', rfl, hd⟩
  · exact (List.append_eq_nil_iff.1 h.symm).1
  · rcases x with _ | ⟨x1, _ | ⟨x2, _ | ⟨x3, _ | ⟨x4, x⟩⟩⟩⟩
    · rfl
    · rcases hs with rfl | ⟨a', b', c', d', s', rfl, -⟩
      · simp at h
      · simp at h; omega
    · rcases hs with rfl | ⟨a', b', c', d', s', rfl, -⟩
      · simp at h
      · simp at h; omega
    · rcases hs with rfl | ⟨a', b', c', d', s', rfl, -⟩
      · simp at h
      · simp at h; omega
    · simp at h
      exact absurd h.2.2.2.1.symm (hx x4 (by simp))

/-- A zero that ends a file name is not in the line that follows. -/
theorem no_zero {x r s : List Nat} (hx : ∀ n ∈ x, n ≠ 0) (hr : Tail r) (hs : Tail s) (h : r = x ++ 0 :: s) : False := by
  rcases hr with rfl | ⟨a, b, c, d, r', rfl, hd⟩
  · simp at h
  · rcases x with _ | ⟨x1, _ | ⟨x2, _ | ⟨x3, _ | ⟨x4, x⟩⟩⟩⟩
    · rcases hs with rfl | ⟨a', b', c', d', s', rfl, -⟩
      · simp at h
      · simp at h; omega
    · rcases hs with rfl | ⟨a', b', c', d', s', rfl, -⟩
      · simp at h
      · simp at h; omega
    · rcases hs with rfl | ⟨a', b', c', d', s', rfl, -⟩
      · simp at h
      · simp at h; omega
    · rcases hs with rfl | ⟨a', b', c', d', s', rfl, -⟩
      · simp at h
      · simp at h; omega
    · simp at h
      exact hx x4 (by simp) h.2.2.2.1.symm

/-- The text before the first zero. -/
theorem first_zero {a b r s : List Nat} (ha : ∀ n ∈ a, n ≠ 0) (hb : ∀ n ∈ b, n ≠ 0) (h : a ++ 0 :: r = b ++ 0 :: s) :
    a = b ∧ r = s := by
  induction a generalizing b with
  | nil =>
    cases b with
    | nil => simpa using h
    | cons m b =>
      simp at h
      exact absurd h.1.symm (hb m (by simp))
  | cons n a ih =>
    cases b with
    | nil =>
      simp at h
      exact absurd h.1 (ha n (by simp))
    | cons m b =>
      simp only [List.cons_append, List.cons.injEq] at h
      obtain ⟨e1, e2⟩ := ih (fun x hx => ha x (by simp [hx])) (fun x hx => hb x (by simp [hx])) h.2
      exact ⟨by rw [h.1, e1], e2⟩

theorem nonul_sharp : NoNul ['#'] := by unfold NoNul; decide

theorem nonul_line : NoNul "line".toList := by unfold NoNul; decide

theorem flatMap_text (l : UInt64) (t : Str) (es : List Entry) :
    (Entry.text l t :: es).flatMap Entry.bytes =
      CcLex.bytes 8 l.toNat ++ (t.map Char.toNat ++ es.flatMap Entry.bytes) := by
  rw [List.flatMap_cons]
  unfold Entry.bytes
  rw [List.append_assoc]

theorem flatMap_file (s : Str) (es : List Entry) :
    (Entry.file s :: es).flatMap Entry.bytes = s.map Char.toNat ++ 0 :: es.flatMap Entry.bytes := by
  rw [List.flatMap_cons]
  unfold Entry.bytes
  simp

theorem line_inj {l m : UInt64} (hl : l.toNat < 2 ^ 24) (hm : m.toNat < 2 ^ 24) {r s : List Nat}
    (h : CcLex.bytes 8 l.toNat ++ r = CcLex.bytes 8 m.toNat ++ s) : l = m ∧ r = s := by
  have hlen : ∀ n, n < 2 ^ 24 → (CcLex.bytes 8 n).length = 8 := by
    intro n hn; rw [bytes_small hn]; rfl
  obtain ⟨h1, h2⟩ := List.append_inj h (by rw [hlen _ hl, hlen _ hm])
  exact ⟨UInt64.toNat_inj.1 (bytes_small_inj hl hm h1), h2⟩

theorem mixed {t u s : Str} {r r' : List Nat} (ht : NoNul t) (hu : NoNul u) (hs : NoNul s) (hr : Tail r)
    (hr' : Tail r') (h : t.map Char.toNat ++ r = u.map Char.toNat ++ (s.map Char.toNat ++ 0 :: r')) : False := by
  rw [← List.append_assoc] at h
  have hnz : ∀ n ∈ u.map Char.toNat ++ s.map Char.toNat, n ≠ 0 := by
    intro n hn
    rcases List.mem_append.1 hn with hn | hn
    · exact nul_map hu n hn
    · exact nul_map hs n hn
  rcases Nat.le_total (t.map Char.toNat).length (u.map Char.toNat ++ s.map Char.toNat).length with hl | hl
  · obtain ⟨x, e1, e2⟩ := split_le h hl
    exact no_zero (fun n hn => hnz n (e1 ▸ List.mem_append_right _ hn)) hr hr' e2
  · obtain ⟨x, e1, e2⟩ := split_le h.symm hl
    cases x with
    | nil => exact no_zero (x := []) (by simp) hr hr' (by simpa using e2.symm)
    | cons n x =>
      simp at e2
      have := nul_map ht n (e1 ▸ List.mem_append_right _ (by simp))
      exact this e2.1.symm

/-- The bytes determine the entries. -/
theorem Grouped.inj {a b : List Entry} (ha : Grouped a) (hb : Grouped b)
    (h : a.flatMap Entry.bytes = b.flatMap Entry.bytes) : a = b := by
  induction ha generalizing b with
  | nil =>
    cases hb with
    | nil => rfl
    | text h1 h2 h3 _ => rw [flatMap_text, bytes_small h1] at h; simp at h
    | file h1 h2 _ _ => rw [flatMap_text, bytes_small h1] at h; simp at h
  | @text l t es h1 h2 h3 hg ih =>
    cases hb with
    | nil => rw [flatMap_text, bytes_small h1] at h; simp at h
    | @text m u fs g1 g2 g3 gg =>
      rw [flatMap_text, flatMap_text] at h
      obtain ⟨rfl, h'⟩ := line_inj h1 g1 h
      have heq : t.map Char.toNat = u.map Char.toNat := by
        rcases Nat.le_total (t.map Char.toNat).length (u.map Char.toNat).length with hl | hl
        · obtain ⟨x, e1, e2⟩ := split_le h' hl
          have := no_extend (fun n hn => nul_map g3 n (e1 ▸ List.mem_append_right _ hn)) hg.tail gg.tail e2
          rw [e1, this, List.append_nil]
        · obtain ⟨x, e1, e2⟩ := split_le h'.symm hl
          have := no_extend (fun n hn => nul_map h3 n (e1 ▸ List.mem_append_right _ hn)) gg.tail hg.tail e2
          rw [e1, this, List.append_nil]
      obtain rfl := toNat_inj heq
      rw [ih gg (List.append_cancel_left h')]
    | @file m u s fs g1 g2 g3 gg =>
      rw [flatMap_text, flatMap_text, flatMap_file] at h
      obtain ⟨rfl, h'⟩ := line_inj h1 g1 h
      exact (mixed h3 (by rcases g2 with h | h <;> rw [h] <;> first | exact nonul_sharp | exact nonul_line) g3 hg.tail gg.tail h').elim
  | @file l t s es h1 h2 h3 hg ih =>
    cases hb with
    | nil => rw [flatMap_text, bytes_small h1] at h; simp at h
    | @text m u fs g1 g2 g3 gg =>
      rw [flatMap_text, flatMap_text, flatMap_file] at h
      obtain ⟨rfl, h'⟩ := line_inj h1 g1 h
      exact (mixed g3 (by rcases h2 with h | h <;> rw [h] <;> first | exact nonul_sharp | exact nonul_line) h3 gg.tail hg.tail
        h'.symm).elim
    | @file m u s' fs g1 g2 g3 gg =>
      rw [flatMap_text, flatMap_text, flatMap_file, flatMap_file] at h
      obtain ⟨rfl, h'⟩ := line_inj h1 g1 h
      have hn : NoNul t := by rcases h2 with h | h <;> rw [h] <;> first | exact nonul_sharp | exact nonul_line
      have gn : NoNul u := by rcases g2 with h | h <;> rw [h] <;> first | exact nonul_sharp | exact nonul_line
      rw [← List.append_assoc, ← List.append_assoc] at h'
      obtain ⟨e1, e2⟩ := first_zero
        (fun n hm => (List.mem_append.1 hm).elim (nul_map hn n) (nul_map h3 n))
        (fun n hm => (List.mem_append.1 hm).elim (nul_map gn n) (nul_map g3 n)) h'
      rw [← List.map_append, ← List.map_append] at e1
      have e3 := toNat_inj e1
      have e4 : t = u := by
        have hl : "line".toList = ['l', 'i', 'n', 'e'] := rfl
        rcases h2 with rfl | rfl <;> rcases g2 with rfl | rfl
        · rfl
        · rw [hl] at e3; exact absurd (List.cons.inj e3).1 (by decide)
        · rw [hl] at e3; exact absurd (List.cons.inj e3).1 (by decide)
        · rfl
      subst e4
      rw [List.append_cancel_left e3, ih gg e2]

/-! ## The entries of a source -/

theorem gap_suffix {nl : Bool} {s r : Str} {k : Nat} {b : Bool} (h : Gap nl s r k b) : ∃ g, s = g ++ r := by
  induction h with
  | nil => exact ⟨[], rfl⟩
  | space _ _ ih => obtain ⟨g, rfl⟩ := ih; exact ⟨_ :: g, rfl⟩
  | newline _ _ ih => obtain ⟨g, rfl⟩ := ih; exact ⟨_ :: g, rfl⟩
  | @line t s r k b _ _ _ ih => obtain ⟨g, rfl⟩ := ih; exact ⟨'/' :: '/' :: (t ++ g), by simp⟩
  | @block t s r k b _ _ ih => obtain ⟨g, rfl⟩ := ih; exact ⟨'/' :: '*' :: (t ++ '*' :: '/' :: g), by simp⟩

theorem gap_nul {nl : Bool} {s r : Str} {k : Nat} {b : Bool} (h : Gap nl s r k b) (hs : NoNul s) : NoNul r := by
  obtain ⟨g, rfl⟩ := gap_suffix h
  exact fun c hc => hs c (List.mem_append_right _ hc)

theorem lexeme_nul {s t r : Str} {k : Kind} (h : Lexeme s k t r) (hs : NoNul s) : NoNul t ∧ NoNul r := by
  obtain ⟨rfl, -⟩ := h.split
  exact ⟨fun c hc => hs c (List.mem_append_left _ hc), fun c hc => hs c (List.mem_append_right _ hc)⟩

/-- The lines are small. -/
def Small (is : List Item) : Prop := ∀ l t, .text l t ∈ is.map Item.entry → l.toNat < 2 ^ 24

theorem Small.cons {i : Item} {is : List Item} (h : Small (i :: is)) : Small is :=
  fun l t hm => h l t (by rw [List.map_cons]; exact List.mem_cons_of_mem _ hm)

theorem Small.right {is js : List Item} (h : Small (is ++ js)) : Small js :=
  fun l t hm => h l t (by rw [List.map_append]; exact List.mem_append_right _ hm)

theorem Small.left {is js : List Item} (h : Small (is ++ js)) : Small is :=
  fun l t hm => h l t (by rw [List.map_append]; exact List.mem_append_left _ hm)

theorem grouped_args {l l' : UInt64} {s r : Str} {is : List Item} (h : Args l s is l' r) (hs : NoNul s)
    (hb : Small is) : Grouped (is.map Item.entry) ∧ NoNul r := by
  induction h with
  | newline hg =>
    refine ⟨.nil, fun c hc => gap_nul hg hs c (List.mem_cons_of_mem _ hc)⟩
  | eos hg => exact ⟨.nil, fun c hc => by cases hc⟩
  | tok hg _ _ hl _ ih =>
    obtain ⟨h1, h2⟩ := lexeme_nul hl (gap_nul hg hs)
    obtain ⟨h3, h4⟩ := ih h2 hb.cons
    exact ⟨.text (hb _ _ List.mem_cons_self) hl.split.2 h1 h3, h4⟩

theorem quoted_nul {q n : Str} (h : Quoted q n) (hq : NoNul q) : NoNul n := by
  induction h with
  | nil => exact hq
  | char _ _ _ _ ih =>
    intro c hc
    rcases List.mem_cons.1 hc with rfl | hc
    · exact hq _ List.mem_cons_self
    · exact ih (fun c hc => hq c (List.mem_cons_of_mem _ hc)) c hc
  | escape _ _ ih =>
    intro c hc
    rcases List.mem_cons.1 hc with rfl | hc
    · exact hq _ (by simp)
    · exact ih (fun c hc => hq c (List.mem_cons_of_mem _ (List.mem_cons_of_mem _ hc))) c hc

theorem grouped_line {f f' : File} {l l₀ : UInt64} {s r t : Str} {is : List Item} (h : Line f s is l f' r)
    (hs : NoNul s) (hb : Small is) (hl : l₀.toNat < 2 ^ 24) (ht : t = ['#'] ∨ t = "line".toList) :
    Grouped (.text l₀ t :: is.map Item.entry) ∧ NoNul r := by
  have hne : t ≠ [] ∧ NoNul t := by
    rcases ht with rfl | rfl
    · exact ⟨by decide, nonul_sharp⟩
    · exact ⟨by decide, nonul_line⟩
  cases h with
  | number _ _ _ _ hg _ _ ha =>
    obtain ⟨h1, h2⟩ := grouped_args ha (gap_nul hg (fun c hc => hs c (List.mem_append_right _ hc))) hb
    exact ⟨.text hl hne.1 hne.2 h1, h2⟩
  | file _ _ _ _ hg hq hj ha =>
    have hz := gap_nul hg (fun c hc => hs c (List.mem_append_right _ hc))
    obtain ⟨h1, h2⟩ := grouped_args ha (fun c hc => hz c (by simp [hc])) hb.right
    refine ⟨?_, h2⟩
    have hn := quoted_nul hq (fun c hc => hz c (by simp [hc]))
    cases hj with
    | same => exact .text hl hne.1 hne.2 h1
    | file => exact .file hl ht hn h1
    | dir => exact .text hl hne.1 hne.2 h1

theorem grouped_directive {pre : Bool} {f f' : File} {l l' l₀ : UInt64} {s r : Str} {is : List Item}
    (h : Directive pre l f s is l' f' r) (hs : NoNul s) (hb : Small is) (hl : l₀.toNat < 2 ^ 24) :
    Grouped (.text l₀ ['#'] :: is.map Item.entry) ∧ NoNul r := by
  have hsharp : ∀ {es : List Entry}, Grouped es → Grouped (.text l₀ ['#'] :: es) :=
    fun h => .text hl (by decide) nonul_sharp h
  cases h with
  | empty hg => exact ⟨hsharp .nil, fun c hc => gap_nul hg hs c (List.mem_cons_of_mem _ hc)⟩
  | eos hg => exact ⟨hsharp .nil, fun c hc => by cases hc⟩
  | number hg _ hln => exact grouped_line hln (gap_nul hg hs) hb hl (.inl rfl)
  | line hg hlex hg' _ hln =>
    obtain ⟨-, h1⟩ := lexeme_nul hlex (gap_nul hg hs)
    obtain ⟨h2, h3⟩ := grouped_line hln (gap_nul hg' h1) hb.cons (hb _ _ List.mem_cons_self) (.inr rfl)
    exact ⟨hsharp h2, h3⟩
  | other hg _ _ hlex _ _ ha =>
    obtain ⟨h0, h1⟩ := lexeme_nul hlex (gap_nul hg hs)
    obtain ⟨h2, h3⟩ := grouped_args ha h1 hb.cons
    exact ⟨hsharp (.text (hb _ _ List.mem_cons_self) hlex.split.2 h0 h2), h3⟩

theorem grouped_source {pre v : Bool} {l : UInt64} {f : File} {s : Str} {is : List Item}
    (h : Source pre v l f s is) (hs : NoNul s) (hb : Small is) : Grouped (is.map Item.entry) := by
  induction h with
  | eos => exact .nil
  | tok hg _ _ hl _ ih =>
    obtain ⟨h1, h2⟩ := lexeme_nul hl (gap_nul hg hs)
    exact .text (hb _ _ List.mem_cons_self) hl.split.2 h1 (ih h2 hb.cons)
  | directive hg hd _ ih =>
    have h0 := hb.cons
    obtain ⟨h1, h2⟩ := grouped_directive hd
      (fun c hc => gap_nul hg hs c (List.mem_cons_of_mem _ hc)) h0.left (hb _ _ List.mem_cons_self)
    rw [List.map_cons, List.map_append]
    exact h1.append (ih h2 h0.right)

/-! ## Spacing -/

/-- Nothing, or something that starts with a space or a newline. -/
def Blank (r : Str) : Prop := ∀ c, r.head? = some c → isSpace c = true ∨ c = '\n'

theorem blank_not {r : Str} (hr : Blank r) {c : Char} (hc : r.head? = some c) :
    isWord c = false ∧ endsNumber c = true ∧ c.isDigit = false ∧ isSign c = false ∧ c ≠ '\'' ∧ c ≠ '"' ∧
      c ≠ '/' ∧ c ≠ '*' ∧ ∀ q k, (q, k) ∈ puncts → c ∉ q := by
  have hm : c ∈ [' ', '\t', '\r', '\x0c', '\x0b', '\n'] := by
    rcases hr c hc with h | h
    · unfold isSpace at h
      have : c ∈ [' ', '\t', '\r', '\x0c', '\x0b'] := by simpa using h
      simp only [List.mem_cons, List.not_mem_nil, or_false] at this ⊢
      rcases this with h | h | h | h | h <;> simp [h]
    · simp [h]
  have hx : ([' ', '\t', '\r', '\x0c', '\x0b', '\n'].all fun c => !isWord c && endsNumber c && !c.isDigit &&
    !isSign c && c != '\'' && c != '"' && c != '/' && c != '*' && puncts.all fun x => !x.1.contains c) = true := by
    decide
  have := List.all_eq_true.1 hx c hm
  simp only [Bool.and_eq_true, Bool.not_eq_true', bne_iff_ne, ne_eq, List.all_eq_true] at this
  obtain ⟨⟨⟨⟨⟨⟨⟨⟨h1, h2⟩, h3⟩, h4⟩, h5⟩, h6⟩, h7⟩, h8⟩, h9⟩ := this
  refine ⟨h1, h2, h3, h4, h5, h6, h7, h8, fun q k hq hmem => ?_⟩
  have := h9 (q, k) hq
  simp at this
  exact this hmem

theorem number_blank {t r r' : Str} (h : NumberTail t r) (hr : r = []) (hb : Blank r') : NumberTail t r' := by
  induction h with
  | nil _ => exact .nil fun c hc => (blank_not hb hc).2.1
  | exp h1 h2 _ ih => exact .exp h1 h2 (ih hr)
  | @char c t r h1 h2 _ ih =>
    refine .char h1 (fun he d hd => ?_) (ih hr)
    cases t with
    | nil => exact (blank_not hb hd).2.2.2.1
    | cons e t => exact h2 he d (by simpa using hd)

theorem suffix_blank {t r : Str} (h : Suffix t []) (hb : Blank r) : Suffix t r := by
  refine ⟨h.1, h.2.1, fun _ c hc hw => ?_, fun _ c hc => (blank_not hb hc).1⟩
  rw [(blank_not hb hc).1] at hw
  cases hw

/-- A token stays the same with blank after it. -/
theorem lexeme_blank {s t r r' : Str} {k : Kind} (h : Lexeme s k t r) (hr : r = []) (hb : Blank r') :
    Lexeme (t ++ r') k t r' := by
  cases h with
  | punct h1 h2 h3 =>
    refine .punct h1 (fun q k' hq hp => ?_) (fun _ c hc => (blank_not hb hc).2.2.1)
    refine Nat.le_of_not_lt fun hlt => ?_
    obtain ⟨z, hz⟩ := hp
    obtain ⟨x, e1, e2⟩ : ∃ x, q = t ++ x ∧ r' = x ++ z := by
      refine ⟨q.drop t.length, ?_, ?_⟩
      · have := congrArg (List.take t.length) hz
        rw [List.take_left, List.take_append_of_le_length (Nat.le_of_lt hlt)] at this
        conv => lhs; rw [← List.take_append_drop t.length q, this]
      · have := congrArg (List.drop t.length) hz
        rw [List.drop_left, List.drop_append_of_le_length (Nat.le_of_lt hlt)] at this
        exact this.symm
    cases x with
    | nil => rw [e1, List.append_nil] at hlt; exact Nat.lt_irrefl _ hlt
    | cons c x =>
      refine (blank_not hb (c := c) (by rw [e2]; rfl)).2.2.2.2.2.2.2.2 q k' hq ?_
      rw [e1]
      simp
  | number h1 h2 => exact .number h1 (number_blank h2 hr hb)
  | fraction h1 h2 => exact .fraction h1 (number_blank h2 hr hb)
  | word h1 h2 h3 h4 h5 h6 =>
    exact .word h1 h2 h3 (fun c hc => (blank_not hb hc).1)
      (fun hc => absurd rfl (blank_not hb hc).2.2.2.2.1) (fun hc => absurd rfl (blank_not hb hc).2.2.2.2.2.1)
  | character h1 h2 h3 => subst hr; exact .character h1 h2 (suffix_blank h3 hb)
  | string h1 h2 h3 => subst hr; exact .string h1 h2 (suffix_blank h3 hb)
  | raw h1 h2 h3 h4 => subst hr; exact .raw h1 h2 h3 (suffix_blank h4 hb)
  | other h1 h2 h3 h4 => exact .other h1 h2 h3 h4

theorem stop_blank {t r : Str} (h : Stop true t) (hne : t ≠ []) (hb : Blank r) : Stop true (t ++ r) := by
  cases t with
  | nil => exact absurd rfl hne
  | cons c t =>
    refine ⟨fun d hd => h.1 d (by simpa using hd), fun x e => ?_, fun x e => ?_⟩
    · obtain ⟨h1, h2⟩ := List.cons.inj e
      cases t with
      | nil =>
        have h2' : r = '/' :: x := h2
        exact (blank_not hb (c := '/') (by rw [h2']; rfl)).2.2.2.2.2.2.1 rfl
      | cons d t =>
        obtain ⟨h3, -⟩ := List.cons.inj h2
        exact h.2.1 t (by rw [h1, h3])
    · obtain ⟨h1, h2⟩ := List.cons.inj e
      cases t with
      | nil =>
        have h2' : r = '*' :: x := h2
        exact (blank_not hb (c := '*') (by rw [h2']; rfl)).2.2.2.2.2.2.2.1 rfl
      | cons d t =>
        obtain ⟨h3, -⟩ := List.cons.inj h2
        exact h.2.2 t (by rw [h1, h3])

end Verif.CcLex
