import Verif.InSubst.Eval

/-!
# Substitutions in `.in` files: files and databases
-/

namespace Verif.InSubst

variable {hash : Str → Str} {e : Env}

/-! ## Lines -/

/-- A line as read. -/
def Line.raw (l : Line) : Str := l.text ++ (if l.eol = .crlf then ['\r'] else [])

theorem getlines_cons (cur : Str) {c : Char} (r : Str) (h : '\n' ≠ c) :
    getlines cur (c :: r) = getlines (cur ++ [c]) r := by
  have : getlines cur (c :: r) = if c = '\n' then cur :: getlines [] r else getlines (cur ++ [c]) r := by
    cases cur <;> rfl
  rw [this, if_neg (fun hc => h hc.symm)]

theorem getlines_line (u r : Str) (h : '\n' ∉ u) : ∀ cur, getlines cur (u ++ '\n' :: r) = (cur ++ u) :: getlines [] r := by
  induction u with
  | nil => intro cur; simp [getlines]
  | cons c u ih =>
    intro cur
    simp only [List.mem_cons, not_or] at h
    show getlines cur (c :: (u ++ '\n' :: r)) = _
    rw [getlines_cons _ _ h.1, ih h.2]
    simp

theorem getlines_last (u : Str) (h : '\n' ∉ u) : ∀ cur, cur ++ u ≠ [] → getlines cur u = [cur ++ u] := by
  induction u with
  | nil =>
    intro cur hc
    cases cur with
    | nil => exact absurd rfl hc
    | cons d cur => simp [getlines]
  | cons c u ih =>
    intro cur _
    simp only [List.mem_cons, not_or] at h
    rw [getlines_cons _ _ h.1, ih h.2 _ (by simp)]
    simp

/-- Lines as read and lines as specified. -/
theorem getlines_lines {s : Str} {ls : List Line} (h : Lines s ls) :
    getlines [] s = ls.map Line.raw ∧ ∀ l ∈ ls, l.eol = .lf → l.text.getLast? ≠ some '\r' := by
  induction h with
  | nil => exact ⟨rfl, by simp⟩
  | last h1 h2 h3 =>
    refine ⟨?_, ?_⟩
    · rw [getlines_last _ h2 _ (by simpa using h1)]; simp [Line.raw]
    · intro l hl _
      simp only [List.mem_singleton] at hl
      subst hl
      exact h3
  | lastCr h2 =>
    refine ⟨?_, ?_⟩
    · rw [getlines_last _ (by simpa using h2) _ (by simp)]; simp [Line.raw]
    · intro l hl hf
      simp only [List.mem_singleton] at hl
      subst hl
      cases hf
  | lf h1 h2 _ ih =>
    refine ⟨?_, ?_⟩
    · rw [getlines_line _ _ h1, ih.1]; simp [Line.raw]
    · intro l hl
      rcases List.mem_cons.1 hl with rfl | hl
      · intro _; exact h2
      · exact ih.2 l hl
  | @crlf s r ls h1 _ ih =>
    refine ⟨?_, ?_⟩
    · rw [show s ++ '\r' :: '\n' :: r = (s ++ ['\r']) ++ '\n' :: r by simp,
        getlines_line _ _ (by simpa using h1), ih.1]
      simp [Line.raw]
    · intro l hl hf
      rcases List.mem_cons.1 hl with rfl | hl
      · cases hf
      · exact ih.2 l hl hf

theorem lines_total (m : Nat) : ∀ s : Str, s.length < m → ∃ ls, Lines s ls := by
  induction m with
  | zero => intro s h; exact absurd h (Nat.not_lt_zero _)
  | succ m ih =>
    intro s h
    by_cases hn : '\n' ∈ s
    · obtain ⟨u, r, rfl, hu⟩ := List.eq_append_cons_of_mem hn
      obtain ⟨ls, hl⟩ := ih r (by simp at h; omega)
      by_cases hr : u.getLast? = some '\r'
      · obtain ⟨u', rfl⟩ := snoc_of_last hr
        refine ⟨⟨u', .crlf⟩ :: ls, ?_⟩
        have := Lines.crlf (s := u') (r := r) (ls := ls) (fun hx => hu (by simp [hx])) hl
        rw [show u' ++ ['\r'] ++ '\n' :: r = u' ++ '\r' :: '\n' :: r by simp]
        exact this
      · exact ⟨_, .lf hu hr hl⟩
    · by_cases hr : s.getLast? = some '\r'
      · obtain ⟨u', rfl⟩ := snoc_of_last hr
        exact ⟨_, .lastCr fun hx => hn (by simp [hx])⟩
      · by_cases he : s = []
        · subst he; exact ⟨[], .nil⟩
        · exact ⟨_, .last he hn hr⟩

theorem source_total (strict : Bool) (sym : Char) (s : Str) : ∃ d ok, Source strict sym s d ok := by
  obtain ⟨ls, hl⟩ := lines_total (s.length + 1) s (Nat.lt_succ_self _)
  obtain ⟨d, ok, hd⟩ := doc_total strict sym ls
  exact ⟨d, ok, ls, hl, hd⟩

/-! ## Files -/

/-- The lines one after another. -/
def docs (hash : Str → Str) (e : Env) (ok : Bool) : Nat → List (List Seg × Eol) → St → St × Except Err Str
  | _, [], st => (st, .ok [])
  | k, (gs, nl) :: d, st =>
    match segs hash e k nl (ok || !d.isEmpty) gs st with
    | (st, .error x) => (st, .error x)
    | (st, .ok s) => front (s ++ nl.str) (docs hash e ok (k + 1) d st)

theorem doc_ok_of_nil {strict : Bool} {sym : Char} {ls : List Line} {d : List (List Seg × Eol)} {ok : Bool}
    (h : Doc strict sym ls d ok) (hd : d = []) : ok = true ∧ ls = [] := by
  cases h with
  | nil => exact ⟨rfl, rfl⟩
  | line => cases hd
  | bad => cases hd

theorem front_error (a : Str) (st : St) (x : Err) : front a (st, .error x) = (st, .error x) := rfl

theorem raw_strip (l : Line) (h : l.eol = .lf → l.text.getLast? ≠ some '\r') :
    (if l.raw.getLast? = some '\r' then l.raw.dropLast else l.raw) = l.text ∧
    (if l.raw.getLast? = some '\r' then ['\r', '\n'] else ['\n']) = l.eol.str := by
  obtain ⟨t, eol⟩ := l
  cases eol with
  | lf =>
    have : (Line.raw ⟨t, .lf⟩) = t := by simp [Line.raw]
    rw [this, if_neg (h rfl), if_neg (h rfl)]
    exact ⟨rfl, rfl⟩
  | crlf =>
    have : (Line.raw ⟨t, .crlf⟩) = t ++ ['\r'] := by simp [Line.raw]
    rw [this, if_pos (by simp), if_pos (by simp)]
    exact ⟨by simp, rfl⟩

theorem fileLoop_docs {ls : List Line} {d : List (List Seg × Eol)} {ok : Bool} (h : Doc e.strict e.sym ls d ok) :
    (∀ l ∈ ls, l.eol = .lf → l.text.getLast? ≠ some '\r') → ∀ (k : Nat) (o nl : Str) (st : St), 1 < k →
    fileLoop hash e k o nl (ls.map Line.raw) st = front (o ++ nl) (docs hash e ok k d st) := by
  induction h with
  | nil => intro _ k o nl st _; simp [fileLoop, docs, front, Except.map]
  | @line l ls gs d ok hg hd ih =>
    intro hl k o nl st hk
    have hs := raw_strip l (hl l (by simp))
    rw [List.map_cons]
    unfold fileLoop
    dsimp only
    rw [hs.1, hs.2, if_pos (by omega), process_segs k l.eol hg]
    unfold docs
    have hok : (ok || !d.isEmpty) = true := by
      cases d with
      | nil => rw [(doc_ok_of_nil hd rfl).1]; rfl
      | cons => simp
    rw [hok]
    cases hx : segs hash e k l.eol true gs st with
    | mk st' y =>
      cases y with
      | error x => rfl
      | ok s =>
        dsimp only
        rw [ih (fun x hx => hl x (by simp [hx])) _ _ _ _ (by omega), front_front]
        simp
  | @bad l ls gs hg =>
    intro hl k o nl st hk
    have hs := raw_strip l (hl l (by simp))
    rw [List.map_cons]
    unfold fileLoop
    dsimp only
    rw [hs.1, hs.2, if_pos (by omega), process_segs k l.eol hg]
    unfold docs
    show _ = front (o ++ nl) (match segs hash e k l.eol false gs st with
      | (st, .error x) => (st, .error x)
      | (st, .ok s) => front (s ++ l.eol.str) (docs hash e false (k + 1) [] st))
    have : ∀ gs st, ∃ st' x, segs hash e k l.eol false gs st = (st', .error x) := by
      intro gs
      induction gs with
      | nil => intro st; exact ⟨st, _, rfl⟩
      | cons g gs ih =>
        intro st
        cases g with
        | lit c =>
          obtain ⟨st', x, h⟩ := ih st
          exact ⟨st', x, by rw [segs_lit, h]; rfl⟩
        | sub n =>
          unfold segs
          cases save hash e k n st with
          | mk st1 y =>
            cases y with
            | error x => exact ⟨st1, x, rfl⟩
            | ok v =>
              obtain ⟨st', x, h⟩ := ih st1
              exact ⟨st', x, by dsimp only; rw [h]; rfl⟩
    obtain ⟨st', x, h⟩ := this gs st
    rw [h]
    rfl

theorem segs_bad (k : Nat) (nl : Eol) : ∀ (gs : List Seg) (st : St), ∃ st' x,
    segs hash e k nl false gs st = (st', .error x) := by
  intro gs
  induction gs with
  | nil => intro st; exact ⟨st, _, rfl⟩
  | cons g gs ih =>
    intro st
    cases g with
    | lit c =>
      obtain ⟨st', x, h⟩ := ih st
      exact ⟨st', x, by rw [segs_lit, h]; rfl⟩
    | sub n =>
      unfold segs
      cases save hash e k n st with
      | mk st1 y =>
        cases y with
        | error x => exact ⟨st1, x, rfl⟩
        | ok v =>
          obtain ⟨st', x, h⟩ := ih st1
          exact ⟨st', x, by dsimp only; rw [h]; rfl⟩

/-- What is written for the lines: without any, it is the newline. -/
def whole (d : List (List Seg × Eol)) (x : St × Except Err Str) : St × Except Err Str :=
  if d = [] then (x.1, .ok Eol.lf.str) else x

theorem file_docs {s : Str} {d : List (List Seg × Eol)} {ok : Bool} (h : Source e.strict e.sym s d ok) (st : St) :
    fileLoop hash e 1 [] ['\n'] (getlines [] s) st = whole d (docs hash e ok 1 d st) := by
  obtain ⟨ls, hl, hd⟩ := h
  obtain ⟨h1, h2⟩ := getlines_lines hl
  rw [h1]
  unfold whole
  cases hd with
  | nil => rfl
  | @line l ls gs d ok hg hd =>
    rw [if_neg (List.cons_ne_nil _ _)]
    have hs := raw_strip l (h2 l (by simp))
    rw [List.map_cons]
    unfold fileLoop
    dsimp only
    rw [hs.1, hs.2, if_neg (by simp), process_segs 1 l.eol hg]
    unfold docs
    have hok : (ok || !d.isEmpty) = true := by
      cases d with
      | nil => rw [(doc_ok_of_nil hd rfl).1]; rfl
      | cons => simp
    rw [hok]
    cases hx : segs hash e 1 l.eol true gs st with
    | mk st' y =>
      cases y with
      | error x => rfl
      | ok s =>
        dsimp only
        rw [fileLoop_docs hd (fun x hx => h2 x (by simp [hx])) _ _ _ _ (by simp)]
        simp
  | @bad l ls gs hg =>
    rw [if_neg (List.cons_ne_nil _ _)]
    have hs := raw_strip l (h2 l (by simp))
    rw [List.map_cons]
    unfold fileLoop
    dsimp only
    rw [hs.1, hs.2, if_neg (by simp), process_segs 1 l.eol hg]
    unfold docs
    show _ = (match (motive := _ → St × Except Err Str) segs hash e 1 l.eol false gs st with
      | (st, .error x) => (st, .error x)
      | (st, .ok s) => front (s ++ l.eol.str) (docs hash e false (1 + 1) [] st))
    obtain ⟨st', x, h⟩ := segs_bad (hash := hash) (e := e) 1 l.eol gs st
    rw [h]

/-! ## Names -/

/-- The value of the name if it has one. -/
def Env.val (e : Env) (n : Str) : Str :=
  match lookup e n with
  | .ok v => v
  | .error _ => []

/-- Saving of the names that have values. -/
def saves (hash : Str → Str) (e : Env) (ps : List (Nat × Str)) (st : St) : St :=
  ps.foldl (fun st p =>
    if st.skip = 0 then { st with dd := st.dd.write (entry hash p.1 p.2 (e.val p.2)) }
    else { st with skip := st.skip - 1 }) st

theorem saves_append (ps qs : List (Nat × Str)) (st : St) :
    saves hash e (ps ++ qs) st = saves hash e qs (saves hash e ps st) := by
  simp [saves]

theorem save_ok (k : Nat) (n v : Str) (st : St) (h : lookup e n = .ok v) :
    save hash e k n st = (saves hash e [(k, n)] st, .ok v) := by
  unfold save
  rw [h]
  simp [saves, Env.val, h]

theorem save_error (k : Nat) (n : Str) (x : Err) (st : St) (h : lookup e n = .error x) :
    save hash e k n st = (st, .error x) := by
  unfold save
  rw [h]

/-- Whether the name has a value. -/
def Has (e : Env) (n : Str) : Prop := ∃ v, lookup e n = .ok v

theorem lookup_error {n : Str} {x : Err} (h : lookup e n = .error x) : x ≠ .assertion := by
  unfold lookup at h
  rintro rfl
  cases h1 : e.smap n with
  | some o =>
    rw [h1] at h
    cases o with
    | some v => cases h
    | none => cases h2 : e.null <;> rw [h2] at h <;> cases h
  | none =>
    rw [h1] at h
    cases h2 : e.vars n with
    | none => rw [h2] at h; cases h
    | some o =>
      rw [h2] at h
      cases o with
      | null => cases h3 : e.null <;> rw [h3] at h <;> cases h
      | value s => cases s <;> cases h

theorem lookup_val {n v : Str} (h : lookup e n = .ok v) : e.val n = v := by simp [Env.val, h]

theorem lineNames_lit (c : Char) (gs : List Seg) : lineNames (.lit c :: gs) = lineNames gs := rfl

theorem lineNames_sub (n : Str) (gs : List Seg) : lineNames (.sub n :: gs) = n :: lineNames gs := rfl

theorem segs_spec (k : Nat) (nl : Eol) (ok : Bool) (gs : List Seg) : ∀ st : St,
    (ok = true → (∀ n ∈ lineNames gs, Has e n) →
      segs hash e k nl ok gs st =
        (saves hash e ((lineNames gs).map fun n => (k, n)) st, .ok (lineOut e.val nl gs))) ∧
    (¬ (ok = true ∧ ∀ n ∈ lineNames gs, Has e n) →
      ∃ ps qs x, lineNames gs = ps ++ qs ∧ (∀ n ∈ ps, Has e n) ∧ x ≠ .assertion ∧
        segs hash e k nl ok gs st = (saves hash e (ps.map fun n => (k, n)) st, .error x)) := by
  induction gs with
  | nil =>
    intro st
    refine ⟨?_, ?_⟩
    · rintro rfl _; rfl
    · intro h
      cases ok with
      | true => exact absurd ⟨rfl, by simp [lineNames]⟩ h
      | false => exact ⟨[], [], .unterminated, rfl, by simp, by simp, rfl⟩
  | cons g gs ih =>
    intro st
    cases g with
    | lit c =>
      rw [segs_lit, lineNames_lit]
      refine ⟨?_, ?_⟩
      · intro h1 h2
        rw [(ih st).1 h1 h2]
        rfl
      · intro h
        obtain ⟨ps, qs, x, h1, h2, hx, h3⟩ := (ih st).2 h
        exact ⟨ps, qs, x, h1, h2, hx, by rw [h3]; rfl⟩
    | sub n =>
      rw [lineNames_sub]
      unfold segs
      cases hl : lookup e n with
      | error x =>
        rw [save_error k n x st hl]
        refine ⟨?_, ?_⟩
        · intro _ h2
          obtain ⟨v, hv⟩ := h2 n (by simp)
          rw [hl] at hv
          cases hv
        · intro _
          exact ⟨[], _, x, rfl, by simp, lookup_error hl, rfl⟩
      | ok v =>
        rw [save_ok k n v st hl]
        dsimp only
        refine ⟨?_, ?_⟩
        · intro h1 h2
          rw [(ih _).1 h1 fun m hm => h2 m (by simp [hm])]
          rw [← saves_append, ← lookup_val hl]
          rfl
        · intro h
          obtain ⟨ps, qs, x, h1, h2, hx, h3⟩ := (ih (saves hash e [(k, n)] st)).2 (by
            rintro ⟨h1, h2⟩
            refine h ⟨h1, ?_⟩
            intro m hm
            rcases List.mem_cons.1 hm with rfl | hm
            · exact ⟨v, hl⟩
            · exact h2 m hm)
          refine ⟨n :: ps, qs, x, by rw [h1]; rfl, ?_, hx, ?_⟩
          · intro m hm
            rcases List.mem_cons.1 hm with rfl | hm
            · exact ⟨v, hl⟩
            · exact h2 m hm
          · rw [h3, ← saves_append]
            rfl

/-- The text of the lines. -/
def text (val : Str → Str) (d : List (List Seg × Eol)) : Str := d.flatMap fun x => lineOut val x.2 x.1 ++ x.2.str

theorem docs_spec (ok : Bool) (d : List (List Seg × Eol)) : (d = [] → ok = true) → ∀ (k : Nat) (st : St),
    (ok = true → (∀ p ∈ names k d, Has e p.2) →
      docs hash e ok k d st = (saves hash e (names k d) st, .ok (text e.val d))) ∧
    (¬ (ok = true ∧ ∀ p ∈ names k d, Has e p.2) →
      ∃ ps qs x, names k d = ps ++ qs ∧ (∀ p ∈ ps, Has e p.2) ∧ x ≠ .assertion ∧
        docs hash e ok k d st = (saves hash e ps st, .error x)) := by
  induction d with
  | nil =>
    intro hok k st
    refine ⟨?_, ?_⟩
    · intro _ _; rfl
    · intro h
      exact absurd ⟨hok rfl, by simp [names]⟩ h
  | cons l d ih =>
    intro _ k st
    obtain ⟨gs, nl⟩ := l
    have hn : names k ((gs, nl) :: d) = (lineNames gs).map (fun n => (k, n)) ++ names (k + 1) d := rfl
    rw [hn]
    unfold docs
    have hs := segs_spec (hash := hash) (e := e) k nl (ok || !d.isEmpty) gs st
    by_cases hg : (ok || !d.isEmpty) = true ∧ ∀ n ∈ lineNames gs, Has e n
    · rw [hs.1 hg.1 hg.2]
      dsimp only
      have hd := ih (by rintro rfl; simpa using hg.1) (k + 1) (saves hash e ((lineNames gs).map fun n => (k, n)) st)
      refine ⟨?_, ?_⟩
      · intro h1 h2
        rw [hd.1 h1 fun p hp => h2 p (by simp [hp]), ← saves_append]
        simp [front, Except.map, text]
      · intro h
        obtain ⟨ps, qs, x, h1, h2, hx, h3⟩ := hd.2 (by
          rintro ⟨h1, h2⟩
          refine h ⟨h1, ?_⟩
          intro p hp
          rcases List.mem_append.1 hp with hp | hp
          · obtain ⟨n, hn, rfl⟩ := List.mem_map.1 hp
            exact hg.2 n hn
          · exact h2 p hp)
        refine ⟨(lineNames gs).map (fun n => (k, n)) ++ ps, qs, x, by rw [h1]; simp, ?_, hx, ?_⟩
        · intro p hp
          rcases List.mem_append.1 hp with hp | hp
          · obtain ⟨n, hn, rfl⟩ := List.mem_map.1 hp
            exact hg.2 n hn
          · exact h2 p hp
        · rw [h3, saves_append]
          rfl
    · obtain ⟨ps, qs, x, h1, h2, hx, h3⟩ := hs.2 hg
      rw [h3]
      refine ⟨?_, ?_⟩
      · intro h1 h2
        refine absurd ⟨by simp [h1], ?_⟩ hg
        intro n hn
        exact h2 (k, n) (by simp [hn])
      · intro _
        refine ⟨ps.map fun n => (k, n), qs.map (fun n => (k, n)) ++ names (k + 1) d, x, ?_, ?_, hx, rfl⟩
        · rw [h1]; simp
        · intro p hp
          obtain ⟨n, hn, rfl⟩ := List.mem_map.1 hp
          exact h2 n hn

theorem source_ok_of_nil {strict : Bool} {sym : Char} {s : Str} {d : List (List Seg × Eol)} {ok : Bool}
    (h : Source strict sym s d ok) (hd : d = []) : ok = true := by
  obtain ⟨ls, _, h⟩ := h
  exact (doc_ok_of_nil h hd).1

/-- The rest of an update. -/
theorem perform_spec {s : Str} {d : List (List Seg × Eol)} {ok : Bool} (h : Source e.strict e.sym s d ok) (st : St) :
    (ok = true → (∀ p ∈ names 1 d, Has e p.2) →
      perform hash e s st = ((saves hash e (names 1 d) st).dd, .updated (output e.val d))) ∧
    (¬ (ok = true ∧ ∀ p ∈ names 1 d, Has e p.2) →
      ∃ ps qs x, names 1 d = ps ++ qs ∧ (∀ p ∈ ps, Has e p.2) ∧ x ≠ .assertion ∧
        perform hash e s st = ((saves hash e ps st).dd, .error x)) := by
  have hd := docs_spec (hash := hash) (e := e) ok d (source_ok_of_nil h) 1 st
  unfold perform
  rw [file_docs h st]
  unfold whole output
  refine ⟨?_, ?_⟩
  · intro h1 h2
    rw [hd.1 h1 h2]
    by_cases hn : d = []
    · rw [if_pos hn, if_pos hn]
    · rw [if_neg hn, if_neg hn]
      rfl
  · intro hb
    obtain ⟨ps, qs, x, h1, h2, hx, h3⟩ := hd.2 hb
    refine ⟨ps, qs, x, h1, h2, hx, ?_⟩
    rw [if_neg]
    · rw [h3]
    · intro hn
      exact hb ⟨source_ok_of_nil h hn, by rw [hn]; simp [names]⟩

/-! ## Unique readings -/

theorem perform_result {s : Str} {d : List (List Seg × Eol)} {ok : Bool} (h : Source e.strict e.sym s d ok) (st : St)
    (o : Str) : (perform hash e s st).2 = .updated o ↔
      ok = true ∧ (∀ p ∈ names 1 d, Has e p.2) ∧ o = output e.val d := by
  have hp := perform_spec (hash := hash) h st
  by_cases hb : ok = true ∧ ∀ p ∈ names 1 d, Has e p.2
  · rw [hp.1 hb.1 hb.2]
    refine ⟨?_, ?_⟩
    · intro h; injection h with h; exact ⟨hb.1, hb.2, h.symm⟩
    · rintro ⟨_, _, rfl⟩; rfl
  · obtain ⟨ps, qs, x, _, _, _, h3⟩ := hp.2 hb
    rw [h3]
    refine ⟨?_, ?_⟩
    · intro h; cases h
    · rintro ⟨h1, h2, _⟩; exact absurd ⟨h1, h2⟩ hb

end Verif.InSubst
