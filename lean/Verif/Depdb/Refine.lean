import Verif.Depdb.Lemmas

/-! The refinement relation between the model of the database and the user's view. -/

namespace Verif.Depdb

/-- A file content on the way to the lines `done`: some of them and a part of the next. -/
def Partial (done : List Bytes) (h : Bytes) : Prop :=
  hasMark h = false ∧ ∃ ls p, h = enc ls ++ p ∧ 10 ∉ p ∧ ls <+: done

theorem Partial.mono {done done' : List Bytes} {h : Bytes} (hp : Partial done h)
    (hd : done <+: done') : Partial done' h := by
  obtain ⟨h1, ls, p, h2, h3, h4⟩ := hp
  exact ⟨h1, ls, p, h2, h3, h4.trans hd⟩

/-- The ends of the history: the current content and the initial one. -/
def Ends (F : Bytes) (d : Db) : Prop := d.hist.head? = some d.file ∧ d.hist.getLast? = some F

theorem Ends.cons {F f : Bytes} {d d' : Db} (h : Ends F d) (hf : d'.file = f)
    (hh : ∃ xs, d'.hist = f :: xs ++ d.hist) : Ends F d' := by
  obtain ⟨xs, hh⟩ := hh
  refine ⟨by rw [hh, hf]; simp, ?_⟩
  rw [hh, List.getLast?_append, h.2]; rfl

/-- Relation between a database opened on a file with the content `F` and the user's
view of it. -/
inductive Rel (F : Bytes) (d : Db) (s : View) : Prop
  | read (tail : Bytes)
      (st : d.st = .read) (ro : d.ro = false) (file : d.file = F)
      (hist : d.hist = [F])
      (split : F = enc s.done ++ (enc s.cur.toList ++ tail))
      (pos : d.pos = (enc s.done).length)
      (g : d.g = (enc s.done).length + (enc s.cur.toList).length)
      (rest : s.rest = some (stored [] tail))
      (mark : hasMark (enc s.done ++ enc s.cur.toList) = false)
      (head : s.done ++ s.cur.toList = [] ∨ tail.head? ≠ some 0)
      (nl : ∀ l ∈ s.done ++ s.cur.toList, 10 ∉ l)
  | eof (junk : Bytes)
      (st : d.st = .readEof) (ro : d.ro = false) (file : d.file = F)
      (hist : d.hist = [F])
      (split : F = enc s.done ++ (enc s.cur.toList ++ 0 :: junk))
      (pos : d.pos = (enc s.done).length)
      (g : d.g = (enc s.done).length + (enc s.cur.toList).length)
      (rest : s.rest = some ([], true))
      (mark : hasMark (enc s.done ++ enc s.cur.toList) = false)
      (nl : ∀ l ∈ s.done ++ s.cur.toList, 10 ∉ l)
  | write
      (st : d.st = .write) (ro : d.ro = false) (file : d.file = enc s.done)
      (w : d.w = d.file.length)
      (cur : s.cur = none) (rest : s.rest = none)
      (mark : hasMark d.file = false)
      (hist : ∀ h ∈ d.hist, h = F ∨ Partial s.done h)
      (nl : ∀ l ∈ s.done, 10 ∉ l)
      (ends : Ends F d)

theorem take_left' {α : Type} (a b : List α) (n : Nat) (h : n = a.length) : (a ++ b).take n = a := by
  subst h; simp

theorem drop_left' {α : Type} (a b : List α) (n : Nat) (h : n = a.length) : (a ++ b).drop n = b := by
  subst h; simp

/-- Switching to writing at `pos = |enc s.done|`. -/
theorem rel_change {F : Bytes} {d : Db} {done : List Bytes} {t : Bytes}
    (st : d.st = .read ∨ d.st = .readEof) (ro : d.ro = false) (file : d.file = F)
    (hist : d.hist = [F]) (split : F = enc done ++ t)
    (pos : d.pos = (enc done).length) (mark : hasMark (enc done) = false)
    (nl : ∀ l ∈ done, 10 ∉ l) :
    Rel F (d.change true) { done := done, cur := none, rest := none } := by
  have h1 : ¬ (d.st = .write ∨ d.st = .undef) := by
    rcases st with h | h <;> simp [h]
  have htr : truncate d.file d.pos = enc done := by
    unfold truncate
    rw [file, split, take_left' _ _ _ pos, pos]
    simp
  unfold Db.change
  simp only [h1, if_false, ro, if_true, Db.setFile, htr]
  apply Rel.write <;> simp [ro, pos, mark]
  · exact ⟨Or.inr ⟨mark, done, [], by simp, by simp, List.prefix_refl _⟩,
      fun h hh => Or.inl (by simpa [hist] using hh)⟩
  · exact nl
  · simp [Ends, hist]

theorem rel_read {F : Bytes} {d : Db} {s : View} (h : Rel F d s) :
    d.read.1 = s.read.1 ∧ Rel F d.read.2 s.read.2 := by
  cases h with
  | write st ro file w cur rest mark hist nl ends =>
    have hd : d.read = (none, d) := by simp [Db.read, st]
    have hs : s.read = (none, s) := by simp [View.read, rest]
    rw [hd, hs]
    exact ⟨rfl, Rel.write st ro file w cur rest mark hist nl ends⟩
  | eof junk st ro file hist split pos g rest mark nl =>
    have hd : d.read = (none, { d with pos := d.g }) := by
      simp [Db.read, Db.read_, st]
    have hs : s.read = (none, { s with done := s.done ++ s.cur.toList, cur := none }) := by
      simp [View.read, rest]
    rw [hd, hs]
    refine ⟨rfl, Rel.eof junk st ro file hist ?_ ?_ ?_ rest ?_ (by simpa using nl)⟩
    · simp [enc_append, split, enc_nil]
    · simp [enc_append, g]
    · simp [enc_append, g, enc_nil]
    · simpa [enc_append, enc_nil] using mark
  | read tail st ro file hist split pos g rest mark head nl =>
    have hdrop : d.file.drop d.g = tail := by
      rw [file, split, ← List.append_assoc]
      apply drop_left'; simp [g]
    have hd : d.read = d.read_ := by simp [Db.read, st]
    rw [hd]
    have key : Rel F (({ d with pos := d.g } : Db).change true)
        { done := s.done ++ s.cur.toList, cur := none, rest := none } := by
      refine rel_change (d := { d with pos := d.g }) (t := tail) (Or.inl st) ro file hist ?_ ?_ ?_ nl
      · simp [enc_append, split]
      · simp [enc_append, g]
      · simpa [enc_append] using mark
    unfold Db.read_
    simp only [st, hdrop]
    cases hsp : splitNl tail with
    | none =>
      have hst := stored_no_nl [] tail (splitNl_none hsp)
      have hs : s.read = (none, { done := s.done ++ s.cur.toList, cur := none, rest := none }) := by
        simp [View.read, rest, hst]
      simp only [hs]
      exact ⟨by simp, by simpa [st] using key⟩
    | some p =>
      obtain ⟨l, r⟩ := p
      obtain ⟨e, hl⟩ := splitNl_some hsp
      have hst := stored_line [] l r hl
      rw [← e] at hst
      cases r with
      | nil =>
        have hs : s.read = (none, { done := s.done ++ s.cur.toList, cur := none, rest := none }) := by
          simp [View.read, rest, hst]
        simp only [hs]
        exact ⟨by simp, by simpa [st] using key⟩
      | cons c r =>
        by_cases hc : c = 0
        · have hs : s.read = (some l, { done := s.done ++ s.cur.toList, cur := some l,
                                        rest := some ([], true) }) := by
            simp [View.read, rest, hst, hc]
          simp only [hs, hc]
          refine ⟨by simp, ?_⟩
          apply Rel.eof (junk := r) <;> simp [ro, file, g, enc_append, enc_singleton]
          · exact hist
          · rw [split, e, hc]
          · try omega
          · rw [← List.append_assoc, ← List.append_assoc]
            apply no_mark_append_nl
            rw [hasMark_append, mark, hasMark_no_nl l hl]
            have : (s.done ++ s.cur.toList = [] ∨ l.head? ≠ some 0) := by
              rcases head with h | h
              · exact Or.inl h
              · right; rw [e] at h; cases l <;> simp_all
            rcases this with h | h
            · have : enc s.done ++ enc s.cur.toList = [] := by rw [← enc_append, h]; rfl
              simp [this]
            · simp [h]
          · intro x hx; rcases hx with hx | hx | hx
            · exact nl x (List.mem_append_left _ hx)
            · exact nl x (by simp [hx])
            · exact hx ▸ hl
        · have hs : s.read = (some l, { done := s.done ++ s.cur.toList, cur := some l,
                                        rest := some (stored [] (c :: r)) }) := by
            simp [View.read, rest, hst, hc]
          simp only [hs, hc]
          refine ⟨by simp, ?_⟩
          apply Rel.read (tail := c :: r) <;> simp [ro, file, g, enc_append, enc_singleton, st, hc]
          · exact hist
          · rw [split, e]
          · try omega
          · rw [← List.append_assoc, ← List.append_assoc]
            apply no_mark_append_nl
            rw [hasMark_append, mark, hasMark_no_nl l hl]
            have : (s.done ++ s.cur.toList = [] ∨ l.head? ≠ some 0) := by
              rcases head with h | h
              · exact Or.inl h
              · right; rw [e] at h; cases l <;> simp_all
            rcases this with h | h
            · have : enc s.done ++ enc s.cur.toList = [] := by rw [← enc_append, h]; rfl
              simp [this]
            · simp [h]
          · intro x hx; rcases hx with hx | hx | hx
            · exact nl x (List.mem_append_left _ hx)
            · exact nl x (by simp [hx])
            · exact hx ▸ hl

theorem hasMark_left {a b : Bytes} (h : hasMark (a ++ b) = false) : hasMark a = false := by
  rw [hasMark_append] at h
  simp only [Bool.or_eq_false_iff] at h
  exact h.1.1

theorem rel_rewrite {F : Bytes} {d : Db} {s : View} (h : Rel F d s) :
    Rel F d.rewrite s.rewrite := by
  cases h with
  | write st ro file w cur rest mark hist nl ends =>
    have hd : d.rewrite = d := by simp [Db.rewrite, st]
    have hs : s.rewrite = s := by simp [View.rewrite, rest]
    rw [hd, hs]
    exact Rel.write st ro file w cur rest mark hist nl ends
  | eof junk st ro file hist split pos g rest mark nl =>
    have hd : d.rewrite = d.change true := by simp [Db.rewrite, st]
    have hs : s.rewrite = { done := s.done, cur := none, rest := none } := by
      simp [View.rewrite, rest]
    rw [hd, hs]
    exact rel_change (Or.inr st) ro file hist split pos (hasMark_left mark)
      (fun l hl => nl l (List.mem_append_left _ hl))
  | read tail st ro file hist split pos g rest mark head nl =>
    have hd : d.rewrite = d.change true := by simp [Db.rewrite, st]
    have hs : s.rewrite = { done := s.done, cur := none, rest := none } := by
      simp [View.rewrite, rest]
    rw [hd, hs]
    exact rel_change (Or.inl st) ro file hist split pos (hasMark_left mark)
      (fun l hl => nl l (List.mem_append_left _ hl))

theorem rel_write_state {F : Bytes} {d : Db} {s : View} (h : Rel F d s) :
    d.rewrite.st = .write ∧ d.rewrite.ro = false ∧ s.rewrite.rest = none := by
  have h' := rel_rewrite h
  have : s.rewrite.rest = none := by
    unfold View.rewrite; split <;> simp_all
  cases h' with
  | write st ro file w cur rest mark hist nl ends => exact ⟨st, ro, rest⟩
  | eof junk st ro file hist split pos g rest mark nl => rw [this] at rest; cases rest
  | read tail st ro file hist split pos g rest mark head nl => rw [this] at rest; cases rest

theorem rel_ro {F : Bytes} {d : Db} {s : View} (h : Rel F d s) : d.ro = false := by
  cases h <;> assumption

theorem write_eq {F : Bytes} {d : Db} {s : View} (h : Rel F d s) (v : Bytes) :
    d.write v = (d.rewrite.puts v).put 10 := by
  have h1 := rel_write_state h
  have h2 := rel_ro h
  unfold Db.write Db.rewrite at *
  simp only [h2]
  split
  · rename_i h; simp at h
  · have : (if d.st = .write then d else d.change true).st ≠ .undef := by
      rw [h1.1]; simp
    simp only [this, if_false]

theorem rel_write {F : Bytes} {d : Db} {s : View} (h : Rel F d s) (v : Bytes) (hv : OkLine v) :
    Rel F (d.write v) (s.write v) := by
  rw [write_eq h v]
  have h1 := rel_write_state h
  have h' := rel_rewrite h
  cases h' with
  | eof junk st ro file hist split pos g rest mark nl => rw [h1.2.2] at rest; cases rest
  | read tail st ro file hist split pos g rest mark head nl => rw [h1.2.2] at rest; cases rest
  | write st ro file w cur rest mark hist nl ends =>
    generalize d.rewrite = d1 at *
    rw [puts_end d1 v w, put_end _ _ (by simp [w])]
    unfold View.write
    generalize hs1 : s.rewrite = s1 at *
    have pre : ∀ n, hasMark (d1.file ++ v.take n) = false := by
      intro n
      apply no_mark_append_prefix _ _ mark
      · exact fun hm => hv.1 (List.mem_of_mem_take hm)
      · cases n with
        | zero => simp
        | succ n =>
          have := hv.2
          cases v with
          | nil => simp
          | cons c v => simpa using this
    apply Rel.write
    · exact st
    · exact ro
    · simp [file, enc_append, enc_singleton]
    · simp [w]; omega
    · exact cur
    · exact rest
    · simp only
      apply no_mark_append_nl
      have := pre v.length
      simpa using this
    · intro x hx
      simp only [List.mem_cons, List.mem_append, List.mem_reverse, List.mem_map] at hx
      rcases hx with rfl | ⟨n, _, rfl⟩ | hx
      · right
        refine ⟨?_, s1.done ++ [v], [], ?_, by simp, List.prefix_refl _⟩
        · apply no_mark_append_nl
          have := pre v.length
          simpa using this
        · simp [file, enc_append, enc_singleton]
      · right
        exact ⟨pre _, s1.done, _, by rw [file], fun h => hv.1 (List.mem_of_mem_take h),
          List.prefix_append _ _⟩
      · exact (hist x hx).imp_right (fun h => h.mono (List.prefix_append _ _))
    · intro x hx
      simp only [List.mem_append, List.mem_singleton] at hx
      rcases hx with hx | rfl
      · exact nl x hx
      · exact hv.1
    · exact Ends.cons ends rfl ⟨_, rfl⟩

theorem rel_expect {F : Bytes} {d : Db} {s : View} (h : Rel F d s) (v : Bytes) (hv : OkLine v) :
    Rel F (d.expect v).2 (s.op (.expect v)) := by
  have hr := rel_read h
  unfold Db.expect View.op
  generalize hd : d.read = dr at *
  generalize hs : s.read = sr at *
  obtain ⟨o, d'⟩ := dr
  obtain ⟨o', s'⟩ := sr
  obtain ⟨h1, h2⟩ := hr
  simp only at h1 h2
  subst h1
  cases o with
  | none => exact rel_write h2 v hv
  | some l =>
    by_cases e : l = v
    · simp [e]; exact h2
    · simp [e]; exact rel_write h2 v hv

/-- Lines written by an operation. -/
def Op.Ok : Op → Prop
  | .read => True
  | .rewrite => True
  | .expect v => OkLine v
  | .write v => OkLine v

instance (o : Op) : Decidable o.Ok := by cases o <;> unfold Op.Ok <;> infer_instance

theorem rel_op {F : Bytes} {d : Db} {s : View} (h : Rel F d s) (o : Op) (ho : o.Ok) :
    Rel F (d.op o) (s.op o) := by
  cases o with
  | read => exact (rel_read h).2
  | rewrite => exact rel_rewrite h
  | expect v => exact rel_expect h v ho
  | write v => exact rel_write h v ho

theorem rel_ops {F : Bytes} {d : Db} {s : View} (h : Rel F d s) (os : List Op)
    (ho : ∀ o ∈ os, o.Ok) : Rel F (d.ops os) (s.ops os) := by
  induction os generalizing d s with
  | nil => exact h
  | cons o os ih =>
    simp only [Db.ops, View.ops, List.foldl_cons]
    exact ih (rel_op h o (ho o (List.mem_cons_self ..)))
      (fun x hx => ho x (List.mem_cons_of_mem _ hx))

theorem okLine_version : OkLine [49] := by decide

/-- Content of the file before it is opened; a file that does not exist counts as empty. -/
def before (f : Option Bytes) : Bytes := f.getD []

theorem rel_open (f : Option Bytes) : Rel (before f) (Db.open f) (View.open f) := by
  cases f with
  | none =>
    have h0 : Rel [] { st := .write, ro := false, file := [], g := 0, pos := 0, w := 0, hist := [[]] }
        { done := [], cur := none, rest := none } := by
      apply Rel.write <;> simp [enc_nil, hasMark, Ends]
    have := rel_write h0 [49] okLine_version
    simpa [Db.open, View.open, before, View.write, View.rewrite] using this
  | some f =>
    have h0 : Rel f { st := .read, ro := false, file := f, g := 0, pos := 0, w := 0, hist := [f] }
        { done := [], cur := none, rest := some (stored [] f) } := by
      apply Rel.read (tail := f) <;> simp [enc_nil, hasMark]
    have hr := rel_read h0
    unfold Db.open View.open before
    simp only [Option.getD_some, if_true]
    generalize hdr : Db.read { st := .read, ro := false, file := f, g := 0, pos := 0, w := 0, hist := [f] } = dr at *
    obtain ⟨o, d'⟩ := dr
    obtain ⟨h1, h2⟩ := hr
    generalize stored [] f = p at *
    obtain ⟨ls, b⟩ := p
    cases ls with
    | nil =>
      cases b with
      | true =>
        simp only [View.read] at h1 h2
        subst h1
        have := rel_write h2 [49] okLine_version
        simpa [View.write, View.rewrite] using this
      | false =>
        simp only [View.read] at h1 h2
        subst h1
        have := rel_write h2 [49] okLine_version
        simpa [View.write, View.rewrite] using this
    | cons l ls =>
      simp only [View.read] at h1 h2
      subst h1
      by_cases e : l = [49]
      · simp only [e, if_true] at h2 ⊢
        simpa using h2
      · simp only [e, if_false]
        have := rel_write h2 [49] okLine_version
        simpa [View.write, View.rewrite] using this

/-- What closing does. -/
theorem rel_close {F : Bytes} {d : Db} {s : View} (h : Rel F d s) (t : Touch) :
    ∃ junk, (d.close t).file = enc s.lines ++ 0 :: junk ∧
      ((d.close t).file = F ∨ junk = []) ∧
      ∀ x ∈ (d.close t).hist, x = F ∨ Partial s.lines x ∨ x = (d.close t).file := by
  cases h with
  | write st ro file w cur rest mark hist nl ends =>
    refine ⟨[], ?_, Or.inr rfl, ?_⟩
    · simp [Db.close, ro, st, put_end d 0 w, View.lines, cur, file]
    · intro x hx
      have hcl : d.close t = d.put 0 := by simp [Db.close, ro, st]
      rw [hcl, put_end d 0 w] at hx ⊢
      simp only [List.mem_cons] at hx
      rcases hx with rfl | hx
      · right; right; rfl
      · rcases hist x hx with h | h
        · exact Or.inl h
        · exact Or.inr (Or.inl (by simpa [View.lines, cur] using h))
  | eof junk st ro file hist split pos g rest mark nl =>
    have hF : F = enc s.lines ++ 0 :: junk := by rw [split]; simp [View.lines, enc_append]
    by_cases ht : t = .unknown
    · have hput : ∀ d1 : Db, d1.file = F → d1.w = d.g → (d1.put 0).file = F ∧
          (d1.put 0).hist = F :: d1.hist := by
        intro d1 hf hw
        have hlen : d.g = (enc s.lines).length := by simp [View.lines, enc_append, g]
        unfold Db.put Db.setFile truncate
        simp only [hf, hw, hF]
        have h1 : (enc s.lines ++ 0 :: junk).take d.g = enc s.lines := take_left' _ _ _ hlen
        have h2 : (enc s.lines ++ 0 :: junk).drop (d.g + 1) = junk := by
          rw [hlen, List.drop_append]; simp
        have h3 : d.g - (enc s.lines ++ 0 :: junk).length = 0 := by simp; omega
        simp [h1, h2]; omega
      have hcl : (d.close t).file = F ∧ (d.close t).hist = F :: d.hist := by
        simp only [Db.close, ro, st, ht, Db.change]
        simp
        have := hput { d with pos := d.g, st := .write, w := d.g } file rfl
        exact this
      refine ⟨junk, by rw [hcl.1]; exact hF, Or.inl hcl.1, ?_⟩
      intro x hx
      rw [hcl.2] at hx
      simp only [List.mem_cons] at hx
      rcases hx with rfl | hx
      · exact Or.inl rfl
      · exact Or.inl (by simpa [hist] using hx)
    · have hcl : (d.close t).file = F ∧ (d.close t).hist = d.hist := by
        simp only [Db.close, ro, st]
        cases t <;> simp_all
      refine ⟨junk, by rw [hcl.1]; exact hF, Or.inl hcl.1, ?_⟩
      intro x hx
      rw [hcl.2] at hx
      exact Or.inl (by simpa [hist] using hx)
  | read tail st ro file hist split pos g rest mark head nl =>
    have hch := rel_change (d := { d with pos := d.g }) (done := s.lines) (t := tail)
      (Or.inl st) ro file hist (by rw [split]; simp [View.lines, enc_append])
      (by simp [View.lines, enc_append, g]) (by simpa [View.lines, enc_append] using mark)
      (by simpa [View.lines] using nl)
    have hcl : d.close t = (({ d with pos := d.g } : Db).change true).put 0 := by
      have : (({ d with pos := d.g } : Db).change true).st = .write := by
        cases hch with
        | write st _ _ _ _ _ _ _ _ _ => exact st
        | eof _ _ _ _ _ _ _ _ rest _ _ => cases rest
        | read _ _ _ _ _ _ _ _ rest _ _ _ => cases rest
      simp only [Db.close, ro]
      rw [← this]
      simp only [st, ro] at this ⊢
      simp [this]
    cases hch with
    | eof _ _ _ _ _ _ _ _ rest _ _ => cases rest
    | read _ _ _ _ _ _ _ _ rest _ _ _ => cases rest
    | write st' ro' file' w' cur' rest' mark' hist' nl' ends' =>
      rw [hcl, put_end _ _ w']
      refine ⟨[], by simp [file'], Or.inr rfl, ?_⟩
      intro x hx
      simp only [List.mem_cons] at hx
      rcases hx with rfl | hx
      · right; right; rfl
      · rcases hist' x hx with h | h
        · exact Or.inl h
        · exact Or.inr (Or.inl h)

end Verif.Depdb
