import Verif.InSubst.History

/-!
# Substitutions in `.in` files: properties

C55: the output of the `in` rule is the file with each substitution replaced by the current value, it is what is
in place after every update however the file, the values, the symbol and the mode have been changed before and
wherever earlier updates have failed or crashed, and an update that would not change the values does nothing.
-/

namespace Verif.InSubst

/-! ## Specification -/

/-- The value that is substituted: from the substitution map or else from the variable, and for null the one
from `in.null`. -/
inductive Value (e : Env) (n : Str) : Str → Prop
  | map {v : Str} : e.smap n = some (some v) → Value e n v
  | mapNull {v : Str} : e.smap n = some none → e.null = some v → Value e n v
  | var {v : Str} : e.smap n = none → e.vars n = some (.value (some v)) → Value e n v
  | varNull {v : Str} : e.smap n = none → e.vars n = some .null → e.null = some v → Value e n v

/-- The output for the file: it can be read, all its names have values, and they are substituted. -/
def Correct (e : Env) (s o : Str) : Prop :=
  ∃ d val, Source e.strict e.sym s d true ∧ (∀ p ∈ names 1 d, Value e p.2 (val p.2)) ∧ o = output val d

/-! ## Lemmas -/

theorem lookup_value {e : Env} {n v : Str} : lookup e n = .ok v ↔ Value e n v := by
  unfold lookup
  refine ⟨?_, ?_⟩
  · intro h
    cases h1 : e.smap n with
    | some x =>
      rw [h1] at h
      cases x with
      | some u => injection h with h; subst h; exact .map h1
      | none =>
        cases h2 : e.null with
        | none => rw [h2] at h; cases h
        | some u => rw [h2] at h; injection h with h; subst h; exact .mapNull h1 h2
    | none =>
      rw [h1] at h
      cases h3 : e.vars n with
      | none => rw [h3] at h; cases h
      | some x =>
        rw [h3] at h
        cases x with
        | null =>
          cases h2 : e.null with
          | none => rw [h2] at h; cases h
          | some u => rw [h2] at h; injection h with h; subst h; exact .varNull h1 h3 h2
        | value x =>
          cases x with
          | none => cases h
          | some u => injection h with h; subst h; exact .var h1 h3
  · intro h
    cases h with
    | map h1 => rw [h1]
    | mapNull h1 h2 => rw [h1, h2]
    | var h1 h2 => rw [h1, h2]
    | varNull h1 h2 h3 => rw [h1, h2, h3]

theorem lineOut_congr {val val' : Str → Str} (nl : Eol) {gs : List Seg}
    (h : ∀ n ∈ lineNames gs, val n = val' n) : lineOut val nl gs = lineOut val' nl gs := by
  induction gs with
  | nil => rfl
  | cons g gs ih =>
    cases g with
    | lit c =>
      rw [lineNames_lit] at h
      show [c] ++ lineOut val nl gs = [c] ++ lineOut val' nl gs
      rw [ih h]
    | sub n =>
      rw [lineNames_sub] at h
      show newlines nl (val n) ++ lineOut val nl gs = newlines nl (val' n) ++ lineOut val' nl gs
      rw [h n (by simp), ih fun m hm => h m (by simp [hm])]

theorem text_congr {val val' : Str → Str} {d : List (List Seg × Eol)} : ∀ {k : Nat},
    (∀ p ∈ names k d, val p.2 = val' p.2) → text val d = text val' d := by
  induction d with
  | nil => intro k _; rfl
  | cons x d ih =>
    intro k h
    have hn : names k (x :: d) = (lineNames x.1).map (fun n => (k, n)) ++ names (k + 1) d := rfl
    rw [hn] at h
    show (lineOut val x.2 x.1 ++ x.2.str) ++ text val d = (lineOut val' x.2 x.1 ++ x.2.str) ++ text val' d
    rw [lineOut_congr x.2 fun n hn => h (k, n) (by simp [hn]), ih (k := k + 1) fun p hp => h p (by simp [hp])]

theorem output_congr {val val' : Str → Str} {d : List (List Seg × Eol)}
    (h : ∀ p ∈ names 1 d, val p.2 = val' p.2) : output val d = output val' d := by
  have := text_congr h
  unfold text at this
  unfold output
  rw [this]

theorem has_value {e : Env} {n : Str} : Has e n ↔ ∃ v, Value e n v := by
  unfold Has
  simp only [lookup_value]

theorem val_value {e : Env} {n : Str} (h : Has e n) : Value e n (e.val n) := by
  obtain ⟨v, hv⟩ := h
  rw [lookup_val hv]
  exact lookup_value.1 hv

theorem value_unique {e : Env} {n u v : Str} (h : Value e n u) (h' : Value e n v) : u = v := by
  have h1 := lookup_value.2 h
  have h2 := lookup_value.2 h'
  rw [h1] at h2
  injection h2

theorem correct_iff {e : Env} {s o : Str} {d : List (List Seg × Eol)} {ok : Bool} (h : Source e.strict e.sym s d ok) :
    Correct e s o ↔ ok = true ∧ AllHas e d ∧ o = output e.val d := by
  refine ⟨?_, ?_⟩
  · rintro ⟨d', val, h1, h2, h3⟩
    obtain ⟨rfl, rfl⟩ := source_unique h h1
    have ha : AllHas e d := fun p hp => has_value.2 ⟨_, h2 p hp⟩
    exact ⟨rfl, ha, by rw [h3]; exact output_congr fun p hp => value_unique (h2 p hp) (val_value (ha p hp))⟩
  · rintro ⟨rfl, h2, h3⟩
    exact ⟨d, e.val, h, fun p hp => val_value (h2 p hp), h3⟩

/-! ## Reading -/

/-- Every file can be read in exactly one way. -/
theorem read_unique (strict : Bool) (sym : Char) (s : Str) :
    ∃ d ok, Source strict sym s d ok ∧ ∀ d' ok', Source strict sym s d' ok' → d' = d ∧ ok' = ok := by
  obtain ⟨d, ok, h⟩ := source_total strict sym s
  exact ⟨d, ok, h, fun d' ok' h' => source_unique h' h⟩

/-- There is at most one output for a file. -/
theorem correct_unique {e : Env} {s o o' : Str} (h : Correct e s o) (h' : Correct e s o') : o = o' := by
  obtain ⟨d, ok, hd⟩ := source_total e.strict e.sym s
  rw [((correct_iff hd).1 h).2.2, ((correct_iff hd).1 h').2.2]

/-- In the lax mode every file can be read. -/
theorem lax_reads (sym : Char) (s : Str) : ∃ d, Source false sym s d true := by
  obtain ⟨d, ok, ls, hl, hd⟩ := source_total false sym s
  refine ⟨d, ls, hl, ?_⟩
  clear hl
  have : ok = true := by
    induction hd with
    | nil => rfl
    | line _ _ ih => exact ih
    | bad h =>
      unfold Reads at h
      rw [if_neg (by simp)] at h
      exact h.2
  exact this ▸ hd

/-! ## Updates -/

/-- If the file is newer than the output or there is no output, then, whatever is in the database, the output is
written exactly if there is one for the file, and it is this one. -/
theorem stale_iff (hash : Str → Str) (newer : Bool) (e : Env) (s : Str) (db : Option (List Str × Bool)) (o : Str) :
    (update hash true newer e s db).2 = .updated o ↔ Correct e s o := by
  obtain ⟨d, ok, h⟩ := source_total e.strict e.sym s
  rw [correct_iff h]
  unfold update
  dsimp only
  rw [if_pos (by simp)]
  exact perform_result h _ o

/-- Whatever has happened before, an update either writes the output for the current file and values, or leaves
it in place, or fails, and it fails only if there is no output for them. -/
theorem update_correct {hash : Str → Str} (hp : Plain hash) (hinj : ∀ u v, hash u = hash v → u = v)
    {w : Disk} (hr : Reachable hash w) (e : Env) :
    (∀ o, (w.update hash e).2 = .updated o → Correct e (w.files e.path) o) ∧
    ((w.update hash e).2 = .unchanged → ∃ o, w.out = some o ∧ Correct e (w.files e.path) o) ∧
    (∀ x, (w.update hash e).2 = .error x → ¬ ∃ o, Correct e (w.files e.path) o) := by
  obtain ⟨d, ok, h⟩ := source_total e.strict e.sym (w.files e.path)
  have ho := update_outcome (e := e) hp (reachable_inv hp hr) h
  simp only [correct_iff h]
  cases hu : w.update hash e with
  | mk v r =>
    rw [hu] at ho
    cases ho with
    | updated h1 h2 =>
      refine ⟨?_, ?_, ?_⟩
      · intro o ho; injection ho with ho; exact ⟨h1, h2, ho.symm⟩
      · intro ho; cases ho
      · intro x ho; cases ho
    | unchanged h1 h2 _ _ _ _ h4 h5 =>
      refine ⟨?_, ?_, ?_⟩
      · intro o ho; cases ho
      · intro _
        exact ⟨_, h4, h1, h2, output_congr fun p hp => hinj _ _ (h5 p hp)⟩
      · intro x ho; cases ho
    | early h1 _ _ =>
      refine ⟨?_, ?_, ?_⟩
      · intro o ho; cases ho
      · intro ho; cases ho
      · rintro x _ ⟨o, h2, h3, _⟩; exact h1 ⟨h2, h3⟩
    | failed h1 _ _ =>
      refine ⟨?_, ?_, ?_⟩
      · intro o ho; cases ho
      · intro ho; cases ho
      · rintro x _ ⟨o, h2, h3, _⟩; exact h1 ⟨h2, h3⟩

/-- The same as a state: after an update that has succeeded, the output is the one for the current file and
values. -/
theorem output_current {hash : Str → Str} (hp : Plain hash) (hinj : ∀ u v, hash u = hash v → u = v)
    {w w' : Disk} (hr : Reachable hash w) {e : Env} {v : View}
    (h : (∃ o, w.update hash e = (v, .updated o) ∧
        w' = ⟨w.files, fun _ => false, false, some (v.lines, true), some o⟩) ∨
      (w.update hash e = (v, .unchanged) ∧ w' = w)) :
    ∃ o, w'.out = some o ∧ Correct e (w'.files e.path) o := by
  have hc := update_correct hp hinj hr e
  rcases h with ⟨o, h1, rfl⟩ | ⟨h1, rfl⟩
  · exact ⟨o, rfl, hc.1 o (by rw [h1])⟩
  · exact hc.2.1 (by rw [h1])

/-- The assertion in the check of the saved values holds. -/
theorem no_assertion {hash : Str → Str} (hp : Plain hash) {w : Disk} (hr : Reachable hash w) (e : Env) :
    (w.update hash e).2 ≠ .error .assertion := by
  obtain ⟨d, ok, h⟩ := source_total e.strict e.sym (w.files e.path)
  have ho := update_outcome (e := e) hp (reachable_inv hp hr) h
  intro hx
  cases hu : w.update hash e with
  | mk v r =>
    rw [hu] at ho hx
    cases ho with
    | updated => cases hx
    | unchanged => cases hx
    | early _ h1 _ => injection hx with hx; exact h1 hx
    | failed _ h1 _ => injection hx with hx; exact h1 hx

/-- After an update that has written the output, the next one does nothing exactly if the rule, the symbol, the
mode and the file are the same and every name in the file has a value with the same hash. -/
theorem unchanged_iff {hash : Str → Str} (hp : Plain hash) {w : Disk} (hr : Reachable hash w)
    {e e' : Env} {v : View} {o : Str} {d : List (List Seg × Eol)}
    (hu : w.update hash e = (v, .updated o)) (hd : Source e.strict e.sym (w.files e.path) d true) :
    (Disk.update hash ⟨w.files, fun _ => false, false, some (v.lines, true), some o⟩ e').2 = .unchanged ↔
      e'.rule = e.rule ∧ e'.sym = e.sym ∧ e'.strict = e.strict ∧ e'.path = e.path ∧
      ∀ p ∈ names 1 d, ∃ x y, Value e p.2 x ∧ Value e' p.2 y ∧ hash y = hash x := by
  have hi := reachable_inv hp hr
  have ho := update_outcome (e := e) hp hi hd
  rw [hu] at ho
  cases ho with
  | updated _ hall =>
    have hi' : Inv hash ⟨w.files, fun _ => false, false,
        some ((View.out (header e ++ entries hash e.val (names 1 d))).lines, true), some (output e.val d)⟩ :=
      inv_step hp (.updated hu) hi
    rw [lines_out] at hi' ⊢
    obtain ⟨d', ok', h'⟩ := source_total e'.strict e'.sym (w.files e'.path)
    have ho' := update_outcome (e := e') hp hi' h'
    refine ⟨?_, ?_⟩
    · intro hx
      cases hu' : Disk.update hash ⟨w.files, fun _ => false, false,
        some (header e ++ entries hash e.val (names 1 d), true), some (output e.val d)⟩ e' with
      | mk v' r' =>
        rw [hu'] at ho' hx
        cases ho' with
        | updated => cases hx
        | early => cases hx
        | failed => cases hx
        | @unchanged _ val _ hall' _ _ _ hdb _ hval =>
          injection hdb with hdb
          injection hdb with hdb _
          have hh : header e = header e' := (List.append_inj hdb rfl).1
          have hent := (List.append_inj hdb rfl).2
          have hrule : e'.rule = e.rule := by
            unfold header at hh
            simp only [List.cons.injEq, and_true] at hh
            exact (List.append_inj' hh.1 rfl).1.symm
          obtain ⟨e1, e2, e3⟩ := header_eq hh
          rw [← e1, ← e2, ← e3] at h'
          obtain ⟨rfl, _⟩ := source_unique hd h'
          refine ⟨hrule, e1.symm, e2.symm, e3.symm, ?_⟩
          intro p hpp
          refine ⟨e.val p.2, e'.val p.2, val_value (hall p hpp), val_value (hall' p hpp), ?_⟩
          rw [← hval p hpp]
          -- The lines are the same and so are the hashes in them.
          have hn : NameOk e.strict p.2 := doc_names hd.choose_spec.2 1 p hpp
          have hmap : ∀ (ps : List (Nat × Str)), entries hash e.val ps = entries hash val ps → p ∈ ps →
              entry hash p.1 p.2 (e.val p.2) = entry hash p.1 p.2 (val p.2) := by
            intro ps
            induction ps with
            | nil => intro _ hm; cases hm
            | cons q ps ih =>
              intro hq hm
              simp only [entries, List.map_cons, List.cons.injEq] at hq
              rcases List.mem_cons.1 hm with rfl | hm
              · exact hq.1
              · exact ih hq.2 hm
          have he := congrArg parseEntry (hmap _ hent hpp)
          rw [parse_entry hp _ _ _ hn.1, parse_entry hp _ _ _ hn.1] at he
          injection he with he
          injection he with _ he
          exact he.symm
    · rintro ⟨e0, e1, e2, e3, hv⟩
      have hh : header e' = header e := by
        unfold header
        rw [e0, e1, e2, e3]
      have h'' := h'
      rw [e1, e2, e3] at h''
      obtain ⟨rfl, rfl⟩ := source_unique hd h''
      have hall' : AllHas e' d := by
        intro p hpp
        obtain ⟨x, y, _, h2, _⟩ := hv p hpp
        exact has_value.2 ⟨y, h2⟩
      have hval : ∀ p ∈ names 1 d, hash (e.val p.2) = hash (e'.val p.2) := by
        intro p hpp
        obtain ⟨x, y, h1, h2, h3⟩ := hv p hpp
        rw [value_unique (val_value (hall p hpp)) h1, value_unique (val_value (hall' p hpp)) h2, h3]
      have hnames : ∀ p ∈ names 1 d, NameOk e'.strict p.2 := by
        rw [e2]; exact doc_names hd.choose_spec.2 1
      -- Follow the code.
      unfold Disk.update update
      dsimp only
      obtain ⟨done', cur', h1, h2⟩ := (foldl_expect (header e') [] none
        (header e ++ entries hash e.val (names 1 d)) true).1 (entries hash e.val (names 1 d)) (by rw [hh])
      have : (header e').foldl View.expect (View.open (some (header e ++ entries hash e.val (names 1 d), true))) =
        ⟨done', cur', some (entries hash e.val (names 1 d), true)⟩ := h1
      rw [this, if_neg (by simp [View.writing])]
      have hc := (checkLoop_spec (hash := hash) (e := e') (entries hash e.val (names 1 d))
        ((entries hash e.val (names 1 d)).length + 1) done' cur' true 0 (Nat.lt_succ_self _)).1 (by
          intro l hl
          obtain ⟨p, hpp, rfl⟩ := List.mem_map.1 hl
          exact (good_entry hp (hnames p hpp)).2 ⟨hall' p hpp, hval p hpp⟩)
      obtain ⟨v', h3, h4, _⟩ := hc.1 rfl
      show (match (motive := _ → View × Result) checkLoop hash e' ((entries hash e.val (names 1 d)).length + 1)
        ⟨done', cur', some (entries hash e.val (names 1 d), true)⟩ 0 with
          | (v, .error x) => (v, .error x)
          | (v, .ok k) => if v.writing then perform hash e' (w.files e'.path) ⟨v, k⟩ else (v, .unchanged)).2 = _
      rw [h3]
      dsimp only
      rw [h4, if_neg (by simp)]

/-! ## Copying -/

theorem reads_plain {strict : Bool} {sym : Char} {s : Str} (h : sym ∉ s) : Reads strict sym s (s.map .lit) true := by
  unfold Reads
  cases strict with
  | true =>
    rw [if_pos rfl]
    induction s with
    | nil => exact .nil
    | cons c s ih =>
      simp only [List.mem_cons, not_or] at h
      exact .char (fun e => h.1 e.symm) (ih h.2)
  | false =>
    rw [if_neg (by simp)]
    refine ⟨?_, rfl⟩
    induction s with
    | nil => exact .nil
    | cons c s ih =>
      simp only [List.mem_cons, not_or] at h
      exact .char (fun e => h.1 e.symm) (ih h.2)

theorem lineOut_lits (val : Str → Str) (nl : Eol) (s : Str) : lineOut val nl (s.map .lit) = s := by
  induction s with
  | nil => rfl
  | cons c s ih =>
    show c :: lineOut val nl (s.map .lit) = _
    rw [ih]

theorem lineNames_lits (s : Str) : lineNames (s.map .lit) = [] := by
  induction s with
  | nil => rfl
  | cons c s ih => exact ih

/-- Whether every line is terminated. -/
def Terminated (s : Str) : Prop := s.getLast? = some '\n'

/-- The line with its end. -/
def Line.full (l : Line) : Str := l.text ++ l.eol.str

theorem lines_full {s : Str} {ls : List Line} (h : Lines s ls) : s = [] ∨ Terminated s →
    s = ls.flatMap Line.full := by
  unfold Terminated
  induction h with
  | nil => intro _; rfl
  | @last s h1 h2 _ =>
    rintro (h | h)
    · exact absurd h h1
    · exact absurd (List.mem_of_getLast? h) h2
  | @lastCr s h2 =>
    rintro (h | h)
    · simp at h
    · simp at h
  | @lf s r ls h1 h2 hr ih =>
    intro h
    have hr' : r = [] ∨ r.getLast? = some '\n' := by
      cases r with
      | nil => exact .inl rfl
      | cons c r =>
        right
        rcases h with h | h
        · simp at h
        · simpa [List.getLast?_append, List.getLast?_cons_cons] using h
    rw [List.flatMap_cons, ← ih hr']
    simp [Line.full, Eol.str]
  | @crlf s r ls h1 hr ih =>
    intro h
    have hr' : r = [] ∨ r.getLast? = some '\n' := by
      cases r with
      | nil => exact .inl rfl
      | cons c r =>
        right
        rcases h with h | h
        · simp at h
        · simpa [List.getLast?_append, List.getLast?_cons_cons] using h
    rw [List.flatMap_cons, ← ih hr']
    simp [Line.full, Eol.str]

theorem lines_mem {s : Str} {ls : List Line} (h : Lines s ls) : ∀ l ∈ ls, ∀ c ∈ l.text, c ∈ s := by
  induction h with
  | nil => simp
  | last => simp
  | lastCr => intro l hl c hc; simp at hl; subst hl; simp [hc]
  | lf _ _ _ ih =>
    intro l hl c hc
    rcases List.mem_cons.1 hl with rfl | hl
    · simp [hc]
    · simp [ih l hl c hc]
  | crlf _ _ ih =>
    intro l hl c hc
    rcases List.mem_cons.1 hl with rfl | hl
    · simp [hc]
    · simp [ih l hl c hc]

theorem correct_of_lines {e : Env} {s o : Str} {ls : List Line} (hl : Lines s ls) (hne : ls ≠ []) (f : Line → Str)
    (hr : ∀ l ∈ ls, Reads e.strict e.sym l.text ((f l).map .lit) true)
    (ho : o = ls.flatMap fun l => f l ++ l.eol.str) : Correct e s o := by
  have hd : ∀ ls' : List Line, (∀ l ∈ ls', Reads e.strict e.sym l.text ((f l).map .lit) true) →
      Doc e.strict e.sym ls' (ls'.map fun l => ((f l).map .lit, l.eol)) true := by
    intro ls'
    induction ls' with
    | nil => intro _; exact .nil
    | cons l ls' ih =>
      intro h
      exact .line (h l (by simp)) (ih fun x hx => h x (by simp [hx]))
  have hn : ∀ (ls' : List Line) (k : Nat), names k (ls'.map fun l => ((f l).map .lit, l.eol)) = [] := by
    intro ls'
    induction ls' with
    | nil => intro k; rfl
    | cons l ls' ih =>
      intro k
      show (lineNames ((f l).map .lit)).map _ ++ names (k + 1) _ = []
      rw [lineNames_lits, ih]
      rfl
  refine ⟨_, fun _ => [], ⟨ls, hl, hd ls hr⟩, ?_, ?_⟩
  · rw [hn]; simp
  · unfold output
    rw [if_neg (by simpa using hne), ho]
    rw [List.flatMap_map]
    congr 1
    funext l
    rw [lineOut_lits]

/-- A file without the symbol is copied as is, with the ends of its lines, provided that the last line is
terminated. -/
theorem copied {e : Env} {s : Str} (h : e.sym ∉ s) (ht : Terminated s) : Correct e s s := by
  obtain ⟨ls, hl⟩ := lines_total (s.length + 1) s (Nat.lt_succ_self _)
  have hf := lines_full hl (.inr ht)
  have hne : ls ≠ [] := by
    rintro rfl
    rw [hf] at ht
    cases ht
  exact correct_of_lines hl hne Line.text
    (fun l hl' => reads_plain fun hx => h (lines_mem hl l hl' _ hx)) hf

/-! ## Escaping -/

/-- No two adjacent symbols. -/
def Apart (sym : Char) : Str → Prop
  | [] => True
  | c :: s => (c = sym → s.head? ≠ some sym) ∧ Apart sym s

theorem escape_head {sym : Char} {s : Str} (h : s.head? ≠ some sym) : (escape sym s).head? ≠ some sym := by
  cases s with
  | nil => simp [escape]
  | cons c s =>
    rw [escape_cons]
    split
    · rename_i hc; subst hc; simp at h
    · simpa using h

theorem strict_escape {sym : Char} {s : Str} (h : Apart sym s) : Strict sym (escape sym s) (s.map .lit) true := by
  induction s with
  | nil => exact .nil
  | cons c s ih =>
    rw [escape_cons]
    by_cases hc : c = sym
    · rw [if_pos hc]
      subst hc
      exact .escape (escape_head (h.1 rfl)) (ih h.2)
    · rw [if_neg hc]
      exact .char hc (ih h.2)

theorem escape_append (sym : Char) (u v : Str) : escape sym (u ++ v) = escape sym u ++ escape sym v := by
  simp [escape]

theorem escape_mem {sym c : Char} {s : Str} (h : c ∈ escape sym s) : c ∈ s := by
  unfold escape at h
  rw [List.mem_flatMap] at h
  obtain ⟨x, h1, h2⟩ := h
  split at h2 <;> simp at h2 <;> subst h2 <;> exact h1

theorem escape_last {sym : Char} {s : Str} : (escape sym s).getLast? = s.getLast? := by
  rcases List.eq_nil_or_concat s with rfl | ⟨s, c, rfl⟩
  · rfl
  · rw [List.concat_eq_append, escape_append]
    have : escape sym [c] = [c, c] ∨ escape sym [c] = [c] := by
      unfold escape
      by_cases hc : c = sym
      · left; simp [hc]
      · right; simp [hc]
    rcases this with h | h <;> rw [h] <;> simp

theorem apart_append {sym : Char} {u v : Str} (h : Apart sym (u ++ v)) : Apart sym u ∧ Apart sym v := by
  induction u with
  | nil => exact ⟨trivial, h⟩
  | cons c u ih =>
    obtain ⟨h1, h2⟩ := h
    refine ⟨⟨?_, (ih h2).1⟩, (ih h2).2⟩
    intro hc hu
    apply h1 hc
    cases u with
    | nil => cases hu
    | cons => exact hu

theorem escape_lf {sym : Char} (h : sym ≠ '\n') (u r : Str) :
    escape sym (u ++ '\n' :: r) = escape sym u ++ '\n' :: escape sym r := by
  rw [escape_append, escape_cons, if_neg fun hx => h hx.symm]
  rfl

theorem escape_cr {sym : Char} (h : sym ≠ '\r') (u r : Str) :
    escape sym (u ++ '\r' :: r) = escape sym u ++ '\r' :: escape sym r := by
  rw [escape_append, escape_cons, if_neg fun hx => h hx.symm]
  rfl

theorem lines_escape {sym : Char} (hn : sym ≠ '\n') (hr : sym ≠ '\r') {s : Str} {ls : List Line} (h : Lines s ls) :
    Apart sym s → Lines (escape sym s) (ls.map fun l => ⟨escape sym l.text, l.eol⟩) ∧
      ∀ l ∈ ls, Apart sym l.text := by
  induction h with
  | nil => intro _; exact ⟨.nil, by simp⟩
  | @last s h1 h2 h3 =>
    intro ha
    refine ⟨?_, by simpa using ha⟩
    refine .last ?_ (fun hx => h2 (escape_mem hx)) (by rw [escape_last]; exact h3)
    cases s with
    | nil => exact absurd rfl h1
    | cons c s => rw [escape_cons]; split <;> simp
  | @lastCr s h2 =>
    intro ha
    refine ⟨?_, by simpa using (apart_append ha).1⟩
    rw [escape_cr hr]
    exact .lastCr fun hx => h2 (escape_mem hx)
  | @lf s r ls h1 h2 _ ih =>
    intro ha
    obtain ⟨ha1, _, ha2⟩ := apart_append ha
    obtain ⟨ih1, ih2⟩ := ih ha2
    refine ⟨?_, ?_⟩
    · rw [escape_lf hn]
      exact .lf (fun hx => h1 (escape_mem hx)) (by rw [escape_last]; exact h2) ih1
    · intro l hl
      rcases List.mem_cons.1 hl with rfl | hl
      · exact ha1
      · exact ih2 l hl
  | @crlf s r ls h1 _ ih =>
    intro ha
    obtain ⟨ha1, _, _, ha2⟩ := apart_append ha
    obtain ⟨ih1, ih2⟩ := ih ha2
    refine ⟨?_, ?_⟩
    · rw [escape_cr hr, escape_cons, if_neg fun hx => hn hx.symm]
      exact .crlf (fun hx => h1 (escape_mem hx)) ih1
    · intro l hl
      rcases List.mem_cons.1 hl with rfl | hl
      · exact ha1
      · exact ih2 l hl

/-- In the strict mode, a text without adjacent symbols can be escaped by doubling of the symbols: then the
output is the text.

Partial: this is not the case for a text with adjacent symbols (see `adjacent_not_escaped`). -/
theorem escaped_partial {e : Env} {s : Str} (hs : e.strict = true) (hn : e.sym ≠ '\n') (hr : e.sym ≠ '\r')
    (ha : Apart e.sym s) (ht : Terminated s) : Correct e (escape e.sym s) s := by
  obtain ⟨ls, hl⟩ := lines_total (s.length + 1) s (Nat.lt_succ_self _)
  have hf := lines_full hl (.inr ht)
  have hne : ls ≠ [] := by
    rintro rfl
    rw [hf] at ht
    cases ht
  obtain ⟨h1, h2⟩ := lines_escape hn hr hl ha
  have hd : ∀ ls' : List Line, (∀ l ∈ ls', Apart e.sym l.text) →
      Doc e.strict e.sym (ls'.map fun l => ⟨escape e.sym l.text, l.eol⟩) (ls'.map fun l => (l.text.map .lit, l.eol)) true := by
    intro ls'
    induction ls' with
    | nil => intro _; exact .nil
    | cons l ls' ih =>
      intro h
      refine .line (l := ⟨escape e.sym l.text, l.eol⟩) ?_ (ih fun x hx => h x (by simp [hx]))
      unfold Reads
      rw [hs, if_pos rfl]
      exact strict_escape (h l (by simp))
  have hnm : ∀ (ls' : List Line) (k : Nat), names k (ls'.map fun l => (l.text.map .lit, l.eol)) = [] := by
    intro ls'
    induction ls' with
    | nil => intro k; rfl
    | cons l ls' ih =>
      intro k
      show (lineNames (l.text.map .lit)).map _ ++ names (k + 1) _ = []
      rw [lineNames_lits, ih]
      rfl
  refine ⟨_, fun _ => [], ⟨_, h1, hd ls h2⟩, ?_, ?_⟩
  · rw [hnm]; simp
  · unfold output
    rw [if_neg (by simpa using hne), List.flatMap_map]
    conv => lhs; rw [hf]
    congr 1
    funext l
    rw [lineOut_lits]
    rfl

/-! ## Examples -/

/-- A hash for the examples: numbers of characters in unary. -/
def unary (v : Str) : Str := v.flatMap fun c => List.replicate c.toNat '1' ++ ['0']

theorem unary_plain : Plain unary := by
  intro v
  have : ∀ c ∈ unary v, c = '1' ∨ c = '0' := by
    intro c hc
    unfold unary at hc
    rw [List.mem_flatMap] at hc
    obtain ⟨x, _, h⟩ := hc
    rcases List.mem_append.1 h with h | h
    · exact .inl (List.mem_replicate.1 h).2
    · exact .inr (by simpa using h)
  exact ⟨fun h => by simpa using this _ h, fun h => by simpa using this _ h⟩

theorem unary_split : ∀ {a b : Nat} {u v : Str},
    List.replicate a '1' ++ '0' :: u = List.replicate b '1' ++ '0' :: v → a = b ∧ u = v := by
  intro a
  induction a with
  | zero =>
    intro b u v h
    cases b with
    | zero => exact ⟨rfl, by injection h⟩
    | succ b => rw [List.replicate_succ] at h; injection h with h _; exact absurd h (by decide)
  | succ a ih =>
    intro b u v h
    cases b with
    | zero => rw [List.replicate_succ] at h; injection h with h _; exact absurd h (by decide)
    | succ b =>
      rw [List.replicate_succ, List.replicate_succ] at h
      injection h with _ h
      obtain ⟨h1, h2⟩ := ih h
      exact ⟨by rw [h1], h2⟩

theorem unary_inj : ∀ u v, unary u = unary v → u = v := by
  intro u
  induction u with
  | nil =>
    intro v h
    cases v with
    | nil => rfl
    | cons c v => simp [unary] at h
  | cons c u ih =>
    intro v h
    cases v with
    | nil => simp [unary] at h
    | cons d v =>
      have h' : List.replicate c.toNat '1' ++ '0' :: unary u = List.replicate d.toNat '1' ++ '0' :: unary v := by
        simpa [unary] using h
      obtain ⟨h1, h2⟩ := unary_split h'
      rw [Char.toNat_inj.1 h1, ih v h2]

/-- An environment with these values of variables. -/
def envOf (sym : Char) (strict : Bool) (vars : List (String × String)) : Env where
  rule := "in".toList
  sym := sym
  strict := strict
  path := "f.in".toList
  smap := fun _ => none
  vars := fun n => (vars.find? fun x => x.1.toList = n).map fun x => .value (some x.2.toList)
  null := none

/-- A disk with just this file. -/
def diskOf (s : String) : Disk := ⟨fun _ => s.toList, fun _ => true, false, none, none⟩

/-- A hash for examples that are evaluated. -/
def tiny (v : Str) : Str := v.filter fun c => c ≠ ' ' ∧ c ≠ '/'

/-- An update. -/
def outOf (e : Env) (s : String) : Result := ((diskOf s).update tiny e).2

-- Substitution, escapes and names with symbols.
example : outOf (envOf '$' true [("a", "x"), ("b", "y")]) "p $a$ $$ q\r\n$b$-$a$" =
    .updated "p x $ q\r\ny-x\n".toList := by decide +kernel

example : outOf (envOf '@' false [("a", "x")]) "@a@ me@b @ c@@a@@\n" = .updated "x me@b @ c@x@\n".toList := by
  decide +kernel

-- The hypotheses of the theorems on histories are met.
example : ∃ w e o, Reachable unary w ∧ (w.update unary e).2 = .updated o ∧ o = "ab\n".toList :=
  ⟨diskOf "a$x$\n", envOf '$' true [("x", "b")], _, .init _ _ _, rfl, rfl⟩

example : ∃ w e v o d, Reachable tiny w ∧ w.update tiny e = (v, .updated o) ∧
    Source e.strict e.sym (w.files e.path) d true ∧ names 1 d = [(1, ['x'])] :=
  ⟨diskOf "a$x$\n", envOf '$' true [("x", "b")], _, _, [([.lit 'a', .sub ['x']], .lf)], .init _ _ _, rfl,
    ⟨_, .lf (s := "a$x$".toList) (r := []) (by decide) (by decide) .nil,
      .line (l := ⟨"a$x$".toList, .lf⟩) (.char (by decide) (.sub (n := ['x']) (by decide) (by decide) .nil)) .nil⟩, rfl⟩

/-- The disk after a successful update. -/
def after (w : Disk) (e : Env) : Disk :=
  match w.update tiny e with
  | (v, .updated o) => ⟨w.files, fun _ => false, false, some (v.lines, true), some o⟩
  | _ => w

-- The same values: nothing to do. Different ones: the output is updated.
example : ((after (diskOf "a$x$\n") (envOf '$' true [("x", "b")])).update tiny (envOf '$' true [("x", "b"), ("y", "c")])).2 =
    .unchanged := by decide +kernel

example : ((after (diskOf "a$x$\n") (envOf '$' true [("x", "b")])).update tiny (envOf '$' true [("x", "c")])).2 =
    .updated "ac\n".toList := by decide +kernel

-- Copying.
example : Terminated "a\r\nb\n".toList ∧ '$' ∉ "a\r\nb\n".toList := ⟨rfl, by decide⟩
example : Correct (envOf '$' true []) "a\r\nb\n".toList "a\r\nb\n".toList := copied (by decide) rfl

example : Correct (envOf '$' true []) "a$$b$$\n".toList "a$b$\n".toList :=
  escaped_partial (s := "a$b$\n".toList) rfl (by decide) (by decide) (by simp [Apart, envOf]) rfl

/-! ## What is not the case -/

/-- Adjacent symbols cannot be escaped: the escape of two symbols is taken for a substitution of the variable
with the name of one symbol. -/
theorem adjacent_not_escaped : escape '$' "$$\n".toList = "$$$$\n".toList ∧
    outOf (envOf '$' true []) "$$$$\n" = .error .undefined ∧
    outOf (envOf '$' true [("$", "v")]) "$$$$\n" = .updated "v\n".toList := by decide +kernel

/-- Nor is an escape followed by a substitution understood: the name includes the symbol. -/
theorem escape_then_substitution : outOf (envOf '$' true [("x", "v")]) "$$$x$\n" = .error .undefined ∧
    outOf (envOf '$' true [("$x", "v")]) "$$$x$\n" = .updated "v\n".toList := by decide +kernel

/-- Two adjacent substitutions are taken for one. -/
theorem adjacent_substitutions : outOf (envOf '$' true [("a", "x"), ("b", "y")]) "$a$$b$\n" = .error .undefined ∧
    outOf (envOf '$' true [("a$b", "x")]) "$a$$b$\n" = .updated "x\n".toList := by decide +kernel

/-- In the lax mode, a symbol that is not a part of a substitution hides the one that follows. -/
theorem stray_symbol : outOf (envOf '@' false [("project", "p")]) "me@x or @project@\n" =
    .updated "me@x or @project@\n".toList := by decide +kernel

/-- In the lax mode, a name with a leading dot is substituted, even though it is not a name that can be
expanded as such. -/
theorem leading_dot : IsVar ".a".toList ∧ outOf (envOf '@' false []) "@.a@\n" = .error .undefined := by
  rw [← scan_isVar]
  decide +kernel

/-- An empty file is not copied as is, nor is one whose last line is not terminated. -/
theorem newline_added : outOf (envOf '$' true []) "" = .updated "\n".toList ∧
    outOf (envOf '$' true []) "a" = .updated "a\n".toList := by decide +kernel

/-- The strict mode cannot be requested if that of the rule is lax. -/
theorem strict_ignored : mode false (some "strict".toList) = some false ∧
    mode true (some "lax".toList) = some false ∧ mode true (some "strict".toList) = some true := by decide

end Verif.InSubst
