import Verif.Depdb.Refine

namespace Verif.Depdb

theorem stored_snd (cur f : Bytes) : (stored cur f).2 = hasMark f := by
  induction f generalizing cur with
  | nil => rfl
  | cons b f ih =>
    cases f with
    | nil => rfl
    | cons c f =>
      simp only [stored, hasMark]
      by_cases hb : b = 10
      · by_cases hc : c = 0
        · simp [hb, hc]
        · simp [hb, hc, ih]
      · simp [hb, ih]

theorem hasMark_tail {l r : Bytes} (h : hasMark (l ++ 10 :: r) = false) :
    hasMark r = false ∧ r.head? ≠ some 0 := by
  have e : l ++ 10 :: r = (l ++ [10]) ++ r := by simp
  rw [e, hasMark_append] at h
  simp only [Bool.or_eq_false_iff] at h
  refine ⟨h.1.2, ?_⟩
  intro h0
  simp [h0] at h

theorem stored_partial (ls : List Bytes) (p : Bytes) (hls : ∀ l ∈ ls, 10 ∉ l) (hp : 10 ∉ p)
    (hm : hasMark (enc ls ++ p) = false) :
    stored [] (enc ls ++ p) = (if p = [] then ls.dropLast else ls, false) := by
  induction ls with
  | nil => simp [enc_nil, stored_no_nl _ _ hp]
  | cons l ls ih =>
    have e : enc (l :: ls) ++ p = l ++ 10 :: (enc ls ++ p) := by simp [enc]
    rw [e] at hm ⊢
    rw [stored_line _ _ _ (hls l (List.mem_cons_self ..))]
    obtain ⟨h1, h2⟩ := hasMark_tail hm
    have ih' := ih (fun x hx => hls x (List.mem_cons_of_mem _ hx)) h1
    cases hr : enc ls ++ p with
    | nil =>
      have : ls = [] ∧ p = [] := by
        cases ls with
        | nil => simpa [enc_nil] using hr
        | cons x xs => simp [enc] at hr
      simp [this.1, this.2]
    | cons c t =>
      rw [hr] at ih' h2
      have hc : c ≠ 0 := by simpa using h2
      simp only [hc, if_false, ih']
      by_cases hp : p = []
      · have hls : ls ≠ [] := by
          intro h; simp [h, hp, enc_nil] at hr
        simp [hp, List.dropLast_cons_of_ne_nil hls]
      · simp [hp]

theorem stored_enc' (ls : List Bytes) (hne : ls ≠ []) (hls : ∀ l ∈ ls, 10 ∉ l)
    (hm : hasMark (enc ls) = false) (junk : Bytes) :
    stored [] (enc ls ++ 0 :: junk) = (ls, true) := by
  induction ls with
  | nil => exact absurd rfl hne
  | cons l ls ih =>
    have e : enc (l :: ls) ++ 0 :: junk = l ++ 10 :: (enc ls ++ 0 :: junk) := by simp [enc]
    have e' : enc (l :: ls) = l ++ 10 :: enc ls := by simp [enc]
    rw [e'] at hm
    obtain ⟨h1, h2⟩ := hasMark_tail hm
    rw [e, stored_line _ _ _ (hls l (List.mem_cons_self ..))]
    cases ls with
    | nil => simp [enc]
    | cons x xs =>
      have ih' := ih (by simp) (fun y hy => hls y (List.mem_cons_of_mem _ hy)) h1
      have : ∃ c t, enc (x :: xs) ++ 0 :: junk = c :: t ∧ c ≠ 0 := by
        cases x with
        | nil => exact ⟨10, _, rfl, by decide⟩
        | cons c x =>
          refine ⟨c, _, rfl, ?_⟩
          simpa [enc] using h2
      obtain ⟨c, t, e1, hc⟩ := this
      rw [e1] at ih' ⊢
      simp [hc, ih']

/-- The final lines have no newlines and no marker between them. -/
theorem rel_lines_ok {F : Bytes} {d : Db} {s : View} (h : Rel F d s) :
    (∀ l ∈ s.lines, 10 ∉ l) ∧ hasMark (enc s.lines) = false := by
  cases h with
  | write st ro file w cur rest mark hist nl ends =>
    simp only [View.lines, cur, Option.toList_none, List.append_nil]
    exact ⟨nl, file ▸ mark⟩
  | eof junk st ro file hist split pos g rest mark nl =>
    exact ⟨nl, by simpa [View.lines, enc_append] using mark⟩
  | read tail st ro file hist split pos g rest mark head nl =>
    exact ⟨nl, by simpa [View.lines, enc_append] using mark⟩

theorem rel_writing {F : Bytes} {d : Db} {s : View} (h : Rel F d s) :
    (d.st = .write ↔ s.rest = none) ∧ (d.st = .readEof ↔ s.rest = some ([], true)) ∧
    d.st ≠ .undef := by
  cases h with
  | write st ro file w cur rest mark hist nl ends => simp [st, rest]
  | eof junk st ro file hist split pos g rest mark nl => simp [st, rest]
  | read tail st ro file hist split pos g rest mark head nl =>
    simp only [st, rest]
    refine ⟨by simp, ?_, by simp⟩
    simp only [reduceCtorEq, Option.some.injEq, false_iff]
    intro h
    -- a marker without lines cannot be found
    have : ∀ cur f, stored cur f ≠ ([], true) := by
      intro cur f
      induction f generalizing cur with
      | nil => simp [stored]
      | cons b f ih =>
        cases f with
        | nil => simp [stored]
        | cons c f =>
          simp only [stored]
          split
          · split <;> simp
          · exact ih _
    exact this _ _ h

theorem rel_unmodified {F : Bytes} {d : Db} {s : View} (h : Rel F d s) (hr : s.rest ≠ none) :
    d.file = F ∧ ∀ x ∈ d.hist, x = F := by
  cases h with
  | write st ro file w cur rest mark hist nl ends => exact absurd rest hr
  | eof junk st ro file hist split pos g rest mark nl => exact ⟨file, by simp [hist]⟩
  | read tail st ro file hist split pos g rest mark head nl => exact ⟨file, by simp [hist]⟩

theorem rel_ends {F : Bytes} {d : Db} {s : View} (h : Rel F d s) : Ends F d := by
  cases h with
  | write st ro file w cur rest mark hist nl ends => exact ends
  | eof junk st ro file hist split pos g rest mark nl => simp [Ends, hist, file]
  | read tail st ro file hist split pos g rest mark head nl => simp [Ends, hist, file]

theorem rel_hist_single {F : Bytes} {d : Db} {s : View} (h : Rel F d s) (hr : s.rest ≠ none) :
    d.hist = [F] := by
  cases h with
  | write st ro file w cur rest mark hist nl ends => exact absurd rest hr
  | eof junk st ro file hist split pos g rest mark nl => exact hist
  | read tail st ro file hist split pos g rest mark head nl => exact hist

/-- The ends of the history after closing. -/
theorem close_ends {F : Bytes} {d : Db} {s : View} (h : Rel F d s) (t : Touch) :
    Ends F (d.close t) := by
  have hp : ∀ d' : Db, Ends F d' → ∀ b, Ends F (d'.put b) := by
    intro d' h' b
    exact Ends.cons h' rfl ⟨[], rfl⟩
  have hc : ∀ (d' : Db) tr, Ends F d' → Ends F (d'.change tr) := by
    intro d' tr h'
    unfold Db.change
    split
    · exact h'
    · split
      · exact h'
      · cases tr
        · exact h'
        · exact Ends.cons (d := d') h' rfl ⟨[], rfl⟩
  have h0 := rel_ends h
  unfold Db.close
  split
  · exact h0
  · split
    · exact h0
    · simp only
      have key : ∀ d : Db, Ends F d → Ends F (if d.st = .write then d.put 0 else d) := by
        intro d h
        split
        · exact hp d h 0
        · exact h
      apply key
      split
      · split
        · exact hc { d with pos := d.g } false h0
        · exact h0
      · split
        · exact hc { d with pos := d.g } true h0
        · exact h0

theorem close_eof (d : Db) (h : d.st = .readEof) : d.close .absent = d := by
  unfold Db.close
  by_cases hr : d.ro <;> simp [hr, h]

/-! ### Reading on the side of the view -/

/-- Reading `n` lines. -/
def View.reads (s : View) (n : Nat) : View := s.ops (List.replicate n .read)

theorem View.reads_zero (s : View) : s.reads 0 = s := rfl

theorem View.reads_succ (s : View) (n : Nat) : s.reads (n + 1) = s.read.2.reads n := by
  simp [View.reads, View.ops, List.replicate_succ, View.op]

theorem View.reads_result (ls : List Bytes) (b : Bool) (n : Nat) (s : View)
    (h : s.rest = some (ls, b)) : ((s.reads n).read).1 = ls[n]? := by
  induction n generalizing s ls with
  | zero =>
    rw [View.reads_zero]
    cases ls with
    | nil => cases b <;> simp [View.read, h]
    | cons l ls => simp [View.read, h]
  | succ n ih =>
    rw [View.reads_succ]
    cases ls with
    | nil =>
      cases b with
      | true =>
        rw [ih [] _ (by simp [View.read, h])]; simp
      | false =>
        have hr : s.read.2.rest = none := by simp [View.read, h]
        generalize s.read.2 = s' at *
        have : ∀ m, (s'.reads m) = s' := by
          intro m
          induction m with
          | zero => rfl
          | succ m ihm =>
            rw [View.reads_succ]
            have : s'.read.2 = s' := by simp [View.read, hr]
            rw [this]; exact ihm
        rw [this]; simp [View.read, hr]
    | cons l ls =>
      rw [ih ls _ (by simp [View.read, h])]; simp

theorem View.reads_rest (ls : List Bytes) (b : Bool) (n : Nat) (s : View)
    (h : s.rest = some (ls, b)) :
    (s.reads n).rest = if b = false ∧ ls.length < n then none else some (ls.drop n, b) := by
  induction n generalizing s ls with
  | zero => simp [View.reads_zero, h]
  | succ n ih =>
    rw [View.reads_succ]
    cases ls with
    | nil =>
      cases b with
      | true =>
        rw [ih [] _ (by simp [View.read, h])]; simp
      | false =>
        have hr : s.read.2.rest = none := by simp [View.read, h]
        generalize s.read.2 = s' at *
        have : ∀ m, (s'.reads m) = s' := by
          intro m
          induction m with
          | zero => rfl
          | succ m ihm =>
            rw [View.reads_succ]
            have : s'.read.2 = s' := by simp [View.read, hr]
            rw [this]; exact ihm
        rw [this]; simp [hr]
    | cons l ls =>
      rw [ih ls _ (by simp [View.read, h])]; simp

theorem replicate_read_ok (n : Nat) : ∀ o ∈ List.replicate n Op.read, o.Ok := by
  intro o ho
  rw [(List.mem_replicate.1 ho).2]
  trivial

/-! ### Expectations on the side of the view -/

theorem View.expect_writing (s : View) (v : Bytes) (h : s.rest = none) :
    s.op (.expect v) = { s with done := s.done ++ [v] } := by
  simp [View.op, View.read, h, View.write, View.rewrite]

theorem View.expects_writing (s : View) (ls : List Bytes) (h : s.rest = none) :
    s.ops (ls.map .expect) = { s with done := s.done ++ ls } := by
  induction ls generalizing s with
  | nil => simp [View.ops]
  | cons l ls ih =>
    have : s.ops ((l :: ls).map .expect) = (s.op (.expect l)).ops (ls.map .expect) := rfl
    rw [this, View.expect_writing s l h, ih { s with done := s.done ++ [l] } h]
    simp

theorem View.expects (s : View) (ls old : List Bytes) (b : Bool) (h : s.rest = some (old, b)) :
    (s.ops (ls.map .expect)).lines = s.lines ++ ls ∧
    (s.ops (ls.map .expect)).rest =
      if ls <+: old then some (old.drop ls.length, b) else none := by
  induction ls generalizing s old with
  | nil => simp [View.ops, h]
  | cons l ls ih =>
    have e : s.ops ((l :: ls).map .expect) = (s.op (.expect l)).ops (ls.map .expect) := rfl
    rw [e]
    cases old with
    | nil =>
      have hs : s.op (.expect l) = { done := s.lines ++ [l], cur := none, rest := none } := by
        cases b <;> simp [View.op, View.read, h, View.write, View.rewrite, View.lines]
      rw [hs, View.expects_writing _ _ rfl]
      simp [View.lines]
    | cons o old =>
      by_cases ho : o = l
      · have hs : s.op (.expect l) = { done := s.lines, cur := some l, rest := some (old, b) } := by
          simp [View.op, View.read, h, ho, View.lines]
        rw [hs]
        obtain ⟨h1, h2⟩ := ih { done := s.lines, cur := some l, rest := some (old, b) } old rfl
        rw [h1, h2, ho]
        simp [View.lines]
      · have hs : s.op (.expect l) = { done := s.lines ++ [l], cur := none, rest := none } := by
          simp [View.op, View.read, h, ho, View.write, View.rewrite, View.lines]
        rw [hs, View.expects_writing _ _ rfl]
        have : ¬ (l :: ls <+: o :: old) := by
          rw [List.cons_prefix_cons]; exact fun h => ho h.1.symm
        simp [View.lines, this]

theorem View.open_lines (f : Option Bytes) : (View.open f).lines = [[49]] := by
  unfold View.open
  cases f with
  | none => rfl
  | some f =>
    simp only
    split
    · split
      · rename_i h; simp [View.lines, h]
      · rfl
    · rfl

/-! ### Skipping -/

theorem skipScan_mark {t r : Bytes} (h : skipScan t = some r) : ∃ a, t = a ++ 10 :: 0 :: r := by
  fun_induction skipScan t with
  | case1 => simp at h
  | case2 => simp at h
  | case3 r' => simp at h; exact ⟨[], by simp [h]⟩
  | case4 c r' hc ih => obtain ⟨a, e⟩ := ih h; exact ⟨10 :: c :: a, by simp [e]⟩
  | case5 b c r' hb ih => obtain ⟨a, e⟩ := ih h; exact ⟨b :: a, by simp [e]⟩

theorem skipScan_line (l r : Bytes) (h : 10 ∉ l) :
    skipScan (l ++ 10 :: r) =
      match r with
      | [] => none
      | c :: r' => if c = 0 then some r' else skipScan r' := by
  induction l with
  | nil =>
    cases r with
    | nil => simp [skipScan]
    | cons c r => simp [skipScan]
  | cons x l ih =>
    simp only [List.mem_cons, not_or] at h
    have hx : ¬ x = 10 := fun e => h.1 e.symm
    have e : ∃ y t, l ++ 10 :: r = y :: t := by
      cases l with
      | nil => exact ⟨_, _, rfl⟩
      | cons y l => exact ⟨_, _, rfl⟩
    obtain ⟨y, t, e⟩ := e
    have := ih h.2
    rw [e] at this
    simp only [List.cons_append, e, skipScan, hx, if_false]
    exact this

/-- If all the lines that remain are non-empty, the end marker is found. -/
theorem skipScan_complete (ls : List Bytes) (t : Bytes) (h : stored [] t = (ls, true))
    (hls : ∀ l ∈ ls, l ≠ []) : ∃ r, skipScan t = some r := by
  induction ls generalizing t with
  | nil =>
    exfalso
    cases hsp : splitNl t with
    | none => rw [stored_no_nl _ _ (splitNl_none hsp)] at h; simp at h
    | some p =>
      obtain ⟨l, r⟩ := p
      obtain ⟨e, hl⟩ := splitNl_some hsp
      rw [e, stored_line _ _ _ hl] at h
      cases r with
      | nil => simp at h
      | cons c r => simp only at h; split at h <;> simp at h
  | cons l0 ls ih =>
    cases hsp : splitNl t with
    | none => rw [stored_no_nl _ _ (splitNl_none hsp)] at h; simp at h
    | some p =>
      obtain ⟨l, r⟩ := p
      obtain ⟨e, hl⟩ := splitNl_some hsp
      rw [e, stored_line _ _ _ hl] at h
      rw [e, skipScan_line _ _ hl]
      cases r with
      | nil => simp at h
      | cons c r =>
        simp only at h
        by_cases hc : c = 0
        · exact ⟨r, by simp [hc]⟩
        · simp only [hc, if_false, List.nil_append, Prod.mk.injEq, List.cons.injEq] at h ⊢
          obtain ⟨⟨_, h2⟩, h3⟩ := h
          have h4 : stored [] (c :: r) = (ls, true) := Prod.ext h2 h3
          obtain ⟨r', hr'⟩ := ih (c :: r) h4 (fun x hx => hls x (List.mem_cons_of_mem _ hx))
          refine ⟨r', ?_⟩
          -- the first of the remaining lines is not empty, so `c` is not a newline
          have hcn : c ≠ 10 := by
            intro hcn
            subst hcn
            have := stored_line [] [] r (by simp)
            simp only [List.nil_append] at this
            rw [this] at h4
            cases r with
            | nil => simp at h4
            | cons c' r =>
              simp only at h4
              split at h4
              · simp only [Prod.mk.injEq] at h4
                exact hls [] (by simp [← h4.1]) rfl
              · simp only [Prod.mk.injEq] at h4
                exact hls [] (by simp [← h4.1]) rfl
          cases r with
          | nil => simp [skipScan] at hr'
          | cons c' r => simpa [skipScan, hcn] using hr'

/-! ### Writing over existing content -/

theorem put_over (d : Db) (A J : Bytes) (b : UInt8) (hf : d.file = A ++ J) (hw : d.w = A.length) :
    (d.put b).file = (A ++ [b]) ++ J.drop 1 ∧ (d.put b).w = (A ++ [b]).length ∧
    (d.put b).st = d.st ∧ (d.put b).ro = d.ro := by
  unfold Db.put truncate Db.setFile
  have h1 : (A ++ J).take A.length = A := by simp
  have h2 : (A ++ J).drop (A.length + 1) = J.drop 1 := by
    rw [List.drop_append]; simp
  simp [hf, hw, h1, h2]

theorem puts_over (d : Db) (A J bs : Bytes) (hf : d.file = A ++ J) (hw : d.w = A.length) :
    ∃ J', (d.puts bs).file = (A ++ bs) ++ J' ∧ (d.puts bs).w = (A ++ bs).length ∧
    (d.puts bs).st = d.st ∧ (d.puts bs).ro = d.ro := by
  induction bs generalizing d A J with
  | nil => exact ⟨J, by simp [Db.puts, hf, hw]⟩
  | cons b bs ih =>
    obtain ⟨h1, h2, h3, h4⟩ := put_over d A J b hf hw
    obtain ⟨J', h5, h6, h7, h8⟩ := ih (d.put b) (A ++ [b]) (J.drop 1) h1 h2
    exact ⟨J', by simpa [Db.puts] using h5, by simpa [Db.puts] using h6,
      by simpa [Db.puts, h3] using h7, by simpa [Db.puts, h4] using h8⟩

theorem writes_over (d : Db) (A J : Bytes) (ls : List Bytes) (hf : d.file = A ++ J)
    (hw : d.w = A.length) (hst : d.st = .write) (hro : d.ro = false) :
    ∃ J', (d.ops (ls.map .write)).file = (A ++ enc ls) ++ J' ∧
      (d.ops (ls.map .write)).w = (A ++ enc ls).length ∧
      (d.ops (ls.map .write)).st = .write ∧ (d.ops (ls.map .write)).ro = false := by
  induction ls generalizing d A J with
  | nil => exact ⟨J, by simp [Db.ops, enc_nil, hf, hw, hst, hro]⟩
  | cons l ls ih =>
    have e : d.ops ((l :: ls).map .write) = (d.write l).ops (ls.map .write) := rfl
    have ew : d.write l = (d.puts l).put 10 := by simp [Db.write, hro, hst]
    obtain ⟨J1, h1, h2, h3, h4⟩ := puts_over d A J l hf hw
    obtain ⟨k1, k2, k3, k4⟩ := put_over (d.puts l) (A ++ l) J1 10 h1 h2
    rw [e, ew]
    obtain ⟨J', m1, m2, m3, m4⟩ := ih _ _ _ k1 k2 (by rw [k3, h3, hst]) (by rw [k4, h4, hro])
    have he : A ++ enc (l :: ls) = A ++ l ++ [10] ++ enc ls := by simp [enc]
    exact ⟨J', by rw [he]; exact m1, by rw [he]; exact m2, m3, m4⟩

end Verif.Depdb
