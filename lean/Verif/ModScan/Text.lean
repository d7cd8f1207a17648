import Verif.ModScan.Units

/-!
# Modules of a translation unit: the dependency database
-/

namespace Verif.ModScan

open CcLex (Tok Kind Str)

theorem named_not {n : Str} {p : Bool} (h : Named n p) {x : Char} (hx : CcLex.isWord x = false)
    (h1 : x ≠ '.') (h2 : x ≠ ':') : x ∉ n := by
  intro hc
  rcases h.2.1 x hc with h | h | h
  · rw [hx] at h; cases h
  · exact h1 h
  · exact h2 h

theorem dropWhile_head {p : Char → Bool} {x : Char} {l : Str} (h : p x = false) :
    (x :: l).dropWhile p = x :: l := by
  rw [List.dropWhile_cons, if_neg (by rw [h]; simp)]

theorem takeWhile_to {p : Char → Bool} {w r : Str} (hw : ∀ c ∈ w, p c = true)
    (hr : r = [] ∨ ∃ x r', r = x :: r' ∧ p x = false) : (w ++ r).takeWhile p = w := by
  rw [List.takeWhile_append_of_pos hw]
  rcases hr with rfl | ⟨x, r', rfl, h⟩
  · simp
  · rw [List.takeWhile_cons, if_neg (by rw [h]; simp), List.append_nil]

theorem dropWhile_to {p : Char → Bool} {w r : Str} (hw : ∀ c ∈ w, p c = true)
    (hr : r = [] ∨ ∃ x r', r = x :: r' ∧ p x = false) : (w ++ r).dropWhile p = r := by
  rw [List.dropWhile_append_of_pos hw]
  rcases hr with rfl | ⟨x, r', rfl, h⟩
  · rfl
  · rw [List.dropWhile_cons, if_neg (by rw [h]; simp)]

/-- What one word does. -/
def put (u : Info) (w : Str) (m : Option Char) : Info :=
  if m = some '!' ∨ m = some '+' then
    { u with
      type :=
        if w.contains ':' then (if m = some '!' then .intfPart else .implPart)
        else (if m = some '!' then .intf else .impl)
      name := w }
  else { u with imports := u.imports ++ [⟨w.contains ':', w, m = some '*'⟩] }

theorem words_word {n : Nat} {w r : Str} {m : Option Char} {p : Bool} {u : Info} {lead : Str}
    (hl : lead = [] ∨ lead = [' ']) (hw : Named w p) (hm : ∀ x, m = some x → isMark x = true)
    (hr : r = [] ∨ ∃ r', r = ' ' :: r') :
    words (n + 1) (lead ++ ((w ++ m.toList) ++ r)) u = words n (r.drop 1) (put u w m) := by
  have hsp : ∀ c ∈ w ++ m.toList, (decide (c ≠ ' ')) = true := by
    intro c hc
    rcases List.mem_append.1 hc with hc | hc
    · have : c ≠ ' ' := fun h => named_not hw (x := ' ') (by decide) (by decide) (by decide) (h ▸ hc)
      simp [this]
    · cases m with
      | none => cases hc
      | some x =>
        simp only [Option.toList_some, List.mem_singleton] at hc
        subst hc
        have := hm c rfl
        simp only [decide_eq_true_eq]
        rintro rfl
        exact absurd this (by decide)
  have hW : w ++ m.toList ≠ [] := by simp [hw.1]
  have hr' : r = [] ∨ ∃ x r', r = x :: r' ∧ (decide (x ≠ ' ')) = false := by
    rcases hr with h | ⟨r', h⟩
    · exact Or.inl h
    · exact Or.inr ⟨' ', r', h, by simp⟩
  obtain ⟨y, w', hy⟩ : ∃ y w', w = y :: w' := by
    cases w with
    | nil => exact absurd rfl hw.1
    | cons y w' => exact ⟨y, w', rfl⟩
  have hyq : y ≠ '"' := fun h =>
    named_not hw (x := '"') (by decide) (by decide) (by decide) (by rw [hy, h]; simp)
  have hys : y ≠ ' ' := by
    have := hsp y (by rw [hy]; simp)
    simpa using this
  have hdrop : ((lead ++ ((w ++ m.toList) ++ r)).dropWhile fun x => decide (x = ' ')) =
      (w ++ m.toList) ++ r := by
    have h0 : ((w ++ m.toList) ++ r).dropWhile (fun x => decide (x = ' ')) =
        (w ++ m.toList) ++ r := by
      rw [hy]
      exact dropWhile_head (by simp [hys])
    rcases hl with rfl | rfl
    · exact h0
    · simpa using h0
  obtain ⟨x, xs, hx, hxq⟩ : ∃ x xs, lead ++ ((w ++ m.toList) ++ r) = x :: xs ∧ x ≠ '"' := by
    rcases hl with rfl | rfl
    · rw [hy]; exact ⟨y, _, rfl, hyq⟩
    · exact ⟨' ', _, rfl, by decide⟩
  have hemp : ((w ++ m.toList) ++ r).isEmpty = false := by rw [hy]; rfl
  rw [hx] at hdrop ⊢
  simp only [words]
  rw [if_neg hxq]
  simp only [hdrop, hemp]
  rw [if_neg (by simp)]
  have ht : ((w ++ m.toList) ++ r).takeWhile (fun x => decide (x ≠ ' ')) = w ++ m.toList :=
    takeWhile_to hsp hr'
  have hd : ((w ++ m.toList) ++ r).dropWhile (fun x => decide (x ≠ ' ')) = r :=
    dropWhile_to hsp hr'
  simp only [ht, hd, if_true]
  have hc : ((w ++ m.toList).getLast?).filter isMark = m := by
    cases m with
    | none =>
      rw [Option.toList_none, List.append_nil, Option.filter_eq_none_iff]
      intro z hz
      have hz' : z ∈ w := List.mem_of_getLast? hz
      intro hmk
      simp only [isMark, Bool.or_eq_true, beq_iff_eq] at hmk
      rcases hmk with (rfl | rfl) | rfl
      · exact named_not hw (by decide) (by decide) (by decide) hz'
      · exact named_not hw (by decide) (by decide) (by decide) hz'
      · exact named_not hw (by decide) (by decide) (by decide) hz'
    | some z =>
      rw [Option.toList_some, List.getLast?_concat]
      simp [Option.filter, hm z rfl]
  simp only [hc]
  have hq : (' ' : Char) ≠ '"' := by decide
  have hdl : (if True ∧ m.isSome = true then (w ++ m.toList).dropLast else w ++ m.toList) = w := by
    cases m with
    | none => simp
    | some z => simp
  simp only [hdl, if_neg hq]
  rfl

theorem imports_next (is : List Import) : (importsText is true).drop 1 = importsText is false := by
  cases is with
  | nil => rfl
  | cons i is => simp [importsText]

theorem imports_space (is : List Import) :
    importsText is true = [] ∨ ∃ r, importsText is true = ' ' :: r := by
  cases is with
  | nil => exact Or.inl rfl
  | cons i is => exact Or.inr ⟨_, by simp [importsText]; rfl⟩

theorem words_nil (n : Nat) (u : Info) : words n [] u = u := by cases n <;> rfl

/-- A mark for what is re-exported. -/
def star (b : Bool) : Option Char := if b then some '*' else none

theorem importsText_cons (i : Import) (is : List Import) (b : Bool) :
    importsText (i :: is) b =
      (if b then [' '] else []) ++ ((i.name ++ (star i.exported).toList) ++ importsText is true) := by
  cases h : i.exported <;> simp [importsText, star, h]

theorem contains_colon {n : Str} {p : Bool} (h : Named n p) : n.contains ':' = p := by
  have := h.2.2
  cases p with
  | true => simpa using this
  | false => simpa using this

theorem words_imports (is : List Import) : ∀ n b u, is.length ≤ n →
    (∀ i ∈ is, Named i.name i.part) →
    words n (importsText is b) u = { u with imports := u.imports ++ is } := by
  induction is with
  | nil => intro n b u _ _; simp [importsText, words_nil]
  | cons i is ih =>
    intro n b u hn hi
    obtain ⟨k, rfl⟩ : ∃ k, n = k + 1 := ⟨n - 1, by simp at hn; omega⟩
    have hni := hi i (by simp)
    rw [importsText_cons, words_word (p := i.part) (by cases b <;> simp) hni ?_ (imports_space is),
      imports_next, ih k false _ (by simpa using hn) fun x hx => hi x (by simp [hx])]
    · obtain ⟨ip, nm, ie⟩ := i
      simp only at hni
      have hc := contains_colon hni
      rw [List.contains_eq_mem] at hc
      cases ie <;> simp [put, star, hc]
    · intro x hx
      cases h : i.exported <;> simp [star, h] at hx
      subst hx; decide

theorem imports_length (is : List Import) : ∀ b, (∀ i ∈ is, Named i.name i.part) →
    is.length ≤ (importsText is b).length := by
  induction is with
  | nil => intro _ _; simp
  | cons i is ih =>
    intro b h
    rw [importsText_cons]
    have h1 := ih true fun x hx => h x (by simp [hx])
    have h2 : 0 < i.name.length := List.length_pos_iff.2 (h i (by simp)).1
    simp only [List.length_append, List.length_cons]
    omega

/-- For a unit of a module. -/
theorem words_unit {u : Info} {m : Char} {p : Bool} (hm : isMark m = true) (h : Named u.name p)
    (hi : ∀ i ∈ u.imports, Named i.name i.part) :
    ofText ((u.name ++ [m]) ++ importsText u.imports true) =
      { put ⟨.nonModular, [], []⟩ u.name (some m) with
        imports := (put ⟨.nonModular, [], []⟩ u.name (some m)).imports ++ u.imports } := by
  have hl := imports_length u.imports true hi
  have h2 : 0 < u.name.length := List.length_pos_iff.2 h.1
  have hlen : ((u.name ++ [m]) ++ importsText u.imports true).length =
      (u.name.length + (importsText u.imports true).length) + 1 := by
    simp; omega
  have := words_word (n := u.name.length + (importsText u.imports true).length)
    (u := ⟨.nonModular, [], []⟩) (lead := []) (m := some m) (Or.inl rfl) h
    (fun x hx => by cases hx; exact hm) (imports_space u.imports)
  rw [ofText, hlen]
  refine this.trans ?_
  rw [imports_next]
  exact words_imports _ _ _ _ (by omega) hi

theorem header_step {n : Nat} {w r : Str} {u : Info} (hw : w ≠ []) (hq : '"' ∉ w) :
    words (n + 1) ('"' :: (w ++ '"' :: '!' :: r)) u =
      words n r { u with type := .header, name := w } := by
  have hnq : ∀ c ∈ w, (decide (c ≠ '"')) = true := by
    intro c hc
    simp only [decide_eq_true_eq]
    rintro rfl
    exact hq hc
  obtain ⟨y, w', hy⟩ : ∃ y w', w = y :: w' := by
    cases w with
    | nil => exact absurd rfl hw
    | cons y w' => exact ⟨y, w', rfl⟩
  have hyq : y ≠ '"' := by
    have := hnq y (by rw [hy]; simp)
    simpa using this
  have hdrop : (('"' :: (w ++ '"' :: '!' :: r)).dropWhile fun x => decide (x = '"')) =
      w ++ '"' :: '!' :: r := by
    rw [List.dropWhile_cons, if_pos (by simp), hy]
    exact dropWhile_head (by simp [hyq])
  have hemp : (w ++ '"' :: '!' :: r).isEmpty = false := by rw [hy]; rfl
  have ht : (w ++ '"' :: '!' :: r).takeWhile (fun x => decide (x ≠ '"')) = w :=
    takeWhile_to hnq (Or.inr ⟨'"', _, rfl, by simp⟩)
  have hd : (w ++ '"' :: '!' :: r).dropWhile (fun x => decide (x ≠ '"')) = '"' :: '!' :: r :=
    dropWhile_to hnq (Or.inr ⟨'"', _, rfl, by simp⟩)
  simp only [words]
  simp only [if_true, hdrop, hemp]
  rw [if_neg (by simp)]
  simp only [ht, hd]
  have hq : ('"' : Char) ≠ ' ' := by decide
  simp [hq, isMark]

theorem mark_nonempty (n : Str) (m : Char) : (!(n ++ [m]).isEmpty) = true := by
  cases n <;> rfl

theorem text_round {u : Info} (h : u.Proper) : ofText (toText u) = u := by
  obtain ⟨t, n, is⟩ := u
  obtain ⟨h1, h2⟩ := h
  simp only at h1 h2
  cases t with
  | nonModular =>
    simp only at h1
    subst h1
    show ofText (importsText is false) = _
    rw [ofText, words_imports is _ _ _ (imports_length is false h2) h2]
    rfl
  | header =>
    simp only at h1
    have e : toText ⟨.header, n, is⟩ = '"' :: (n ++ '"' :: '!' :: importsText is true) := by
      simp [toText]
    rw [e, ofText, List.length_cons, header_step h1.1 h1.2,
      words_imports is _ _ _ ?_ h2]
    · rfl
    · have := imports_length is true h2
      simp only [List.length_append, List.length_cons]
      omega
  | intf =>
    simp only at h1
    have e : toText ⟨.intf, n, is⟩ = (n ++ ['!']) ++ importsText is true := by
      rw [← mark_nonempty n '!']; rfl
    rw [e]
    refine (words_unit (u := ⟨.intf, n, is⟩) (by decide) h1 h2).trans ?_
    have hc := contains_colon h1
    rw [List.contains_eq_mem] at hc
    simp [put, hc]
  | impl =>
    simp only at h1
    have e : toText ⟨.impl, n, is⟩ = (n ++ ['+']) ++ importsText is true := by
      rw [← mark_nonempty n '+']; rfl
    rw [e]
    refine (words_unit (u := ⟨.impl, n, is⟩) (by decide) h1 h2).trans ?_
    have hc := contains_colon h1
    rw [List.contains_eq_mem] at hc
    simp [put, hc]
  | intfPart =>
    simp only at h1
    have e : toText ⟨.intfPart, n, is⟩ = (n ++ ['!']) ++ importsText is true := by
      rw [← mark_nonempty n '!']; rfl
    rw [e]
    refine (words_unit (u := ⟨.intfPart, n, is⟩) (by decide) h1 h2).trans ?_
    have hc := contains_colon h1
    rw [List.contains_eq_mem] at hc
    simp [put, hc]
  | implPart =>
    simp only at h1
    have e : toText ⟨.implPart, n, is⟩ = (n ++ ['+']) ++ importsText is true := by
      rw [← mark_nonempty n '+']; rfl
    rw [e]
    refine (words_unit (u := ⟨.implPart, n, is⟩) (by decide) h1 h2).trans ?_
    have hc := contains_colon h1
    rw [List.contains_eq_mem] at hc
    simp [put, hc]

/-! ## What is parsed is proper -/

theorem nice_named {n : Str} (h : Nice n) : Named n false := by
  refine ⟨h.1, fun c hc => ?_, ?_⟩
  · rcases h.2 c hc with h | h
    · exact Or.inl h
    · exact Or.inr (Or.inl h)
  · simp [nice_colon h]

theorem nice_part {n p : Str} (h : Nice n) (hp : Nice p) : Named (n ++ ':' :: p) true := by
  refine ⟨by simp, fun c hc => ?_, by simp⟩
  rcases List.mem_append.1 hc with hc | hc
  · exact (nice_named h).2.1 c hc
  · rcases List.mem_cons.1 hc with rfl | hc
    · exact Or.inr (Or.inr rfl)
    · exact (nice_named hp).2.1 c hc

theorem baseOf_nice {ds : List Decl} (h : ∀ d ∈ ds, d.Nice) (hm : ∃ d ∈ ds, d.isModule) :
    Nice (baseOf ds) := by
  induction ds with
  | nil => obtain ⟨d, hd, _⟩ := hm; cases hd
  | cons d ds ih =>
    have hrec : ¬ d.isModule → Nice (baseOf ds) := by
      intro hn
      refine ih (fun x hx => h x (by simp [hx])) ?_
      obtain ⟨x, hx, hxm⟩ := hm
      rcases List.mem_cons.1 hx with rfl | hx
      · exact absurd hxm hn
      · exact ⟨x, hx, hxm⟩
    cases d with
    | module ex b p => exact (h _ (List.mem_cons_self ..)).1
    | marker => exact hrec id
    | «import» => exact hrec id
    | importPart => exact hrec id
    | header => exact hrec id

theorem makes_proper {ds : List Decl} {u : Info} (hn : ∀ d ∈ ds, d.Nice) (h : Makes ds u) :
    u.Proper := by
  refine ⟨?_, ?_⟩
  · rcases h.unit with ⟨h1, h2, _⟩ | ⟨a, ex, base, part, b, hds, _, _, h1, h2⟩
    · rw [h1]; exact h2
    · have hd := hn (.module ex base part) (by rw [hds]; simp)
      rw [h1, h2]
      cases part with
      | none => cases ex <;> exact nice_named hd.1
      | some q => cases ex <;> exact nice_part hd.1 (hd.2 q rfl)
  · intro i hi
    obtain ⟨j, hj, hjn, hjp⟩ := h.kinds i hi
    rw [← hjn, ← hjp]
    obtain ⟨d, hd, hdj⟩ := List.mem_filterMap.1 hj
    have hdn := hn d hd
    cases d with
    | marker => cases hdj
    | header => cases hdj
    | module => cases hdj
    | «import» ex n => cases hdj; exact nice_named hdn
    | importPart ex p =>
      cases hdj
      obtain ⟨a, b, hab⟩ := List.append_of_mem hd
      obtain ⟨x, hx, hxm⟩ := h.purview a ex p b hab
      exact nice_part (baseOf_nice hn ⟨x, by rw [hab]; simp [hx], hxm⟩) hdn

end Verif.ModScan
