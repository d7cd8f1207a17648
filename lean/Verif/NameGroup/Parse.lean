import Verif.NameGroup.Main
/-! # The parser computes what the specification says: the parser -/

namespace Verif.NameGroup

/-- Enough recursion for these tokens. -/
abbrev B (ts : List Tok) : Nat := 4 * ts.length + 1

/-- The next token neither continues a concatenation nor is an unseparated
group. -/
def Soft (ts : List Tok) : Prop := continues ts = false ∧ lcNext ts = false

/-- The next token is separated or ends the sequence. -/
def Hard (ts : List Tok) : Prop :=
  sepNext ts = true ∨ (∃ r, ts = .rc :: r) ∨ (∃ r, ts = .eos :: r)

theorem Hard.soft {ts : List Tok} (h : Hard ts) : Soft ts := by
  rcases h with h | ⟨r, rfl⟩ | ⟨r, rfl⟩
  · cases ts with
    | nil => cases h
    | cons t ts =>
      cases t <;> simp [sepNext] at h <;> subst_vars <;> exact ⟨rfl, rfl⟩
  · exact ⟨rfl, rfl⟩
  · exact ⟨rfl, rfl⟩

/-! ## Steps -/

variable (e : Env) (ty : Typed)

theorem loop_word {f : Nat} {c : Ctx} {cross : Bool} {st : St} {sp : Bool} {v : Str} {q : Bool}
    {rest : List Tok} (hc : st.cc = none) (hs : continues rest = false) :
    loop e ty (f + 1) c cross st (.word sp v q :: rest) = word e ty f c cross st v q rest := by
  rw [loop, hc]
  simp only [hs, Bool.false_eq_true, if_false]

theorem word_plain {f : Nat} {c : Ctx} {cross : Bool} {st : St} {v : Str} {q : Bool}
    {rest : List Tok} (hs : lcNext rest = false) :
    word e ty (f + 1) c cross st v q rest =
      (wordProject e c v q >>= fun x => wordAppend e c st.ns x.1 x.2.1 x.2.2 >>= fun ns =>
        loop e ty f c cross { st with ns := ns, count := 1, first := false } rest) := by
  rw [word]
  simp only [hs, Bool.false_eq_true, if_false]

theorem word_group {f : Nat} {c : Ctx} {cross : Bool} {st : St} {v : Str} {q : Bool}
    {rest : List Tok} :
    word e ty (f + 1) c cross st v q (.lc false :: rest) =
      (wordProject e c v q >>= fun x => wordPrefix e c x.1 x.2.1 x.2.2 >>= fun c1 =>
        trailer e ty f c1 cross st.ns rest >>= fun y =>
        loop e ty f c cross { st with ns := y.1, count := y.2.1, first := false } y.2.2) := by
  rw [word]
  rfl

theorem loop_lc {f : Nat} {c : Ctx} {cross : Bool} {st : St} {sp : Bool}
    {rest : List Tok} (hc : st.cc = none) :
    loop e ty (f + 1) c cross st (.lc sp :: rest) =
      (trailer e ty f c cross st.ns rest >>= fun y =>
        loop e ty f c cross { st with ns := y.1, count := y.2.1, first := false } y.2.2) := by
  rw [loop, hc]

theorem loop_at {f : Nat} {c : Ctx} {cross : Bool} {st : St} {sp : Bool}
    {rest : List Tok} (hc : st.cc = none) :
    loop e ty (f + 1) c cross st (.at sp :: rest) =
      (atSep c st.ns st.count sp rest >>= fun y =>
        loop e ty f c cross { st with ns := y.1, count := y.2, first := false } rest) := by
  rw [loop, hc]

theorem loop_exp {f : Nat} {c : Ctx} {cross : Bool} {st : St} {sp : Bool} {v : Val}
    {rest : List Tok} (hc : st.cc = none) (hs : Soft rest) :
    loop e ty (f + 1) c cross st (.exp sp v :: rest) =
      if v.null then loop e ty f c cross { st with first := false } rest
      else if valNames v (lastPair st.ns) = [] then
        loop e ty f c cross { st with first := false } rest
      else splice e c 0 st.ns (valNames v (lastPair st.ns)) >>= fun y =>
        loop e ty f c cross { st with ns := y.1, count := y.2, first := false } rest := by
  rw [loop, hc]
  simp only [hs.1, hs.2, Bool.false_eq_true, or_self, if_false]

/-- The end of a sequence. -/
theorem loop_end {f : Nat} {c : Ctx} {cross : Bool} {ns : List FName} {n : Nat}
    {rest : List Tok} (hp : lastPair ns = false)
    (hr : (∃ r, rest = .rc :: r) ∨ (∃ r, rest = .eos :: r)) :
    loop e ty (f + 1) c cross ⟨ns, n, none, false⟩ rest = .ok (ns, rest) := by
  rcases hr with ⟨r, rfl⟩ | ⟨r, rfl⟩ <;>
  · simp [loop, finish, hp]

theorem loop_empty {f : Nat} {c : Ctx} {cross : Bool} {ns : List FName} {n : Nat}
    {rest : List Tok} :
    loop e ty (f + 1) c cross ⟨ns, n, none, true⟩ (.rc :: rest) =
      (appendEmpty c ns >>= fun ns => finish c ns (.rc :: rest)) := by
  rw [loop]
  rfl

/-! ## Outcomes -/

/-- Reading `ts` up to `rest` adds the elements or fails. If `side`, then
the count is that of the names. -/
def Runs (f : Nat) (c : Ctx) (cross : Bool) (st : St) (ts rest : List Tok)
    (side : Bool) : Option (List Elem) → Prop
  | none => Fails (loop e ty f c cross st ts)
  | some es => ∃ g n, B rest ≤ g ∧ (side = true → n = (flat es).length) ∧
      loop e ty f c cross st ts =
        loop e ty g c cross ⟨st.ns ++ flat es, n, none, false⟩ rest

/-- The same for the right hand side of a pair, whose left hand side is
the last of the names. -/
def RunsR (f : Nat) (c : Ctx) (cross : Bool) (pre : List FName) (a : Name) (n : Nat)
    (first : Bool) (ts rest : List Tok) : Option (List Elem) → Prop
  | none => Fails (loop e ty f c cross ⟨pre ++ [(a, true)], n, none, first⟩ ts)
  | some es =>
    match singles es with
    | none => Fails (loop e ty f c cross ⟨pre ++ [(a, true)], n, none, first⟩ ts)
    | some bs => ∃ g n', B rest ≤ g ∧
      loop e ty f c cross ⟨pre ++ [(a, true)], n, none, first⟩ ts =
        loop e ty g c cross ⟨pre ++ flat (bs.map (Elem.pair a)), n', none, false⟩ rest

/-- The tokens after the first brace. -/
def Groups.rest : Groups → List Tok
  | .one s => s.toks false ++ [.rc]
  | .more gs s => gs.rest ++ .lc false :: (s.toks false ++ [.rc])

theorem Groups.toks_eq (sp : Bool) : ∀ gs : Groups, gs.toks sp = .lc sp :: gs.rest
  | .one s => by unfold Groups.toks Groups.rest; rfl
  | .more gs s => by
    unfold Groups.toks Groups.rest
    rw [Groups.toks_eq sp gs]; rfl

/-- The first group and the crosses. -/
def first (f : Nat) (c : Ctx) (cross : Bool) (ts : List Tok) :
    Except Err (List FName × List Tok) :=
  loop e ty f c false ⟨[], 0, none, true⟩ ts >>= fun x => closing x >>= fun y =>
    crosses e ty f cross y.1 y.2

theorem trailer_eq {f : Nat} {c : Ctx} {cross : Bool} {ns : List FName} {ts : List Tok} :
    trailer e ty (f + 1) c cross ns ts =
      (first e ty f c cross ts >>= fun z => addGroup e ns z.1 >>= fun ns' =>
        .ok (ns', ns'.length - ns.length, z.2)) := by
  rw [trailer]
  unfold first
  cases loop e ty f c false ⟨[], 0, none, true⟩ ts with
  | error x => rfl
  | ok x =>
    show (closing x >>= _) = ((closing x >>= _) >>= _)
    cases closing x with
    | error y => rfl
    | ok y => rfl

/-- What reading groups gives. -/
def RunsG (f : Nat) (c : Ctx) (cross : Bool) (ts rest : List Tok) :
    Option (List Elem) → Prop
  | none => Fails (first e ty f c cross ts)
  | some es => ∃ g, B rest ≤ g ∧
      first e ty f c cross ts = crosses e ty g cross (flat es) rest

theorem crosses_end {f : Nat} {cross : Bool} {r : List FName} {ts : List Tok}
    (h : lcNext ts = false) : crosses e ty (f + 1) cross r ts = .ok (r, ts) := by
  rw [crosses]
  simp [h]

/-- A group as a part of the sequence. -/
theorem RunsG.trailer {f : Nat} {c : Ctx} {cross : Bool} {ns : List FName}
    {ts rest : List Tok} {o : Option (List Elem)} (hl : lcNext rest = false)
    (h : RunsG e ty f c cross ts rest o) :
    match o with
    | none => Fails (trailer e ty (f + 1) c cross ns ts)
    | some es => trailer e ty (f + 1) c cross ns ts =
        (addGroup e ns (flat es) >>= fun ns' => .ok (ns', ns'.length - ns.length, rest)) := by
  rw [trailer_eq]
  cases o with
  | none => exact fails_bind h
  | some es =>
    obtain ⟨g, hg, h⟩ := h
    obtain ⟨g', rfl⟩ : ∃ g', g = g' + 1 := ⟨g - 1, by unfold B at hg; omega⟩
    rw [crosses_end e ty hl] at h
    dsimp only
    rw [h]
    rfl

theorem addGroup_plain {ns r : List FName} (h : lastPair ns = false) :
    addGroup e ns r = .ok (ns ++ r) := by
  unfold addGroup
  rw [if_neg (by simp [h])]

/-- A group, outside of a pair. -/
theorem group_runs {f : Nat} {c c1 : Ctx} {cross : Bool} {st : St} {ts rest : List Tok}
    {o : Option (List Elem)} {ts0 : List Tok} {f0 : Nat} (hp : lastPair st.ns = false)
    (hl : lcNext rest = false) (hc : st.cc = none) (hf : B rest ≤ f + 1)
    (h : RunsG e ty f c1 cross ts rest o)
    (h0 : loop e ty f0 c cross st ts0 = (trailer e ty (f + 1) c1 cross st.ns ts >>= fun y =>
        loop e ty (f + 1) c cross { st with ns := y.1, count := y.2.1, first := false } y.2.2)) :
    Runs e ty f0 c cross st ts0 rest true o := by
  have h1 := RunsG.trailer e ty (ns := st.ns) hl h
  cases o with
  | none =>
    show Fails _
    rw [h0]; exact fails_bind h1
  | some es =>
    refine ⟨f + 1, (flat es).length, hf, fun _ => rfl, ?_⟩
    have h1' : Verif.NameGroup.trailer e ty (f + 1) c1 cross st.ns ts = _ := h1
    rw [h0, h1', addGroup_plain e hp]
    show loop e ty (f + 1) c cross _ rest = _
    have : (st.ns ++ flat es).length - st.ns.length = (flat es).length := by simp
    rw [this, hc]

/-- A group as the right hand side of a pair. -/
theorem group_runsR {f : Nat} {c c1 : Ctx} {cross : Bool} {pre : List FName} {a : Name}
    {n : Nat} {fst : Bool} {ts rest : List Tok}
    {o : Option (List Elem)} {ts0 : List Tok} {f0 : Nat}
    (hl : lcNext rest = false) (hf : B rest ≤ f + 1)
    (h : RunsG e ty f c1 cross ts rest o) (hok : ∀ es, o = some es → AllOk es)
    (h0 : loop e ty f0 c cross ⟨pre ++ [(a, true)], n, none, fst⟩ ts0 =
      (trailer e ty (f + 1) c1 cross (pre ++ [(a, true)]) ts >>= fun y =>
        loop e ty (f + 1) c cross ⟨y.1, y.2.1, none, false⟩ y.2.2)) :
    RunsR e ty f0 c cross pre a n fst ts0 rest o := by
  have h1 := RunsG.trailer e ty (ns := pre ++ [(a, true)]) hl h
  cases o with
  | none =>
    show Fails _
    rw [h0]; exact fails_bind h1
  | some es =>
    have h1' : Verif.NameGroup.trailer e ty (f + 1) c1 cross (pre ++ [(a, true)]) ts = _ := h1
    have h2 := addGroup_pair e a pre es (hok es rfl)
    unfold RunsR
    dsimp only
    cases hs : singles es with
    | none =>
      rw [hs] at h2
      dsimp only
      rw [h0, h1']
      exact fails_bind (fails_bind h2)
    | some bs =>
      rw [hs] at h2
      have h2' : addGroup e (pre ++ [(a, true)]) (flat es) = .ok _ := h2
      exact ⟨f + 1, _, hf, by rw [h0, h1', h2']; rfl⟩

/-! ## The right hand side of a cross -/

theorem promote_is (n : Name) : Is (promote n) (crossCtx n) := by
  unfold promote crossCtx
  by_cases h : n.value = []
  · simp only [h, ne_eq, not_true, if_false, if_true]; rfl
  · simp only [h, ne_eq, not_false_iff, if_false, if_true]
    by_cases h2 : n.type = []
    · simp only [h2, not_true, if_false, if_true]; rfl
    · simp only [h2, not_false_iff, if_false, if_true]; exact ⟨_, rfl⟩

theorem flat_singles (ns : List Name) : flat (ns.map Elem.single) = ns.map fun n => (n, false) := by
  induction ns with
  | nil => rfl
  | cons n ns ih => simp [flat, ih]

theorem replay_is {p : Ctx → List FName → List Tok → Except Err (List FName × List Tok)}
    {ts rest : List Tok} {body : Ctx → Option (List Elem)}
    (hp : ∀ c r, lastPair r = false →
      Is (p c r ts) ((body c).map fun es => (r ++ flat es, .rc :: rest))) :
    ∀ (ls : List Name) (r : List FName) (after : List Tok), lastPair r = false →
      (ls = [] → after = rest) →
      Is (replay p ts (ls.map fun n => (n, false)) r after)
        ((concatAll (fun n => (crossCtx n).bind body) ls).map fun es => (r ++ flat es, rest)) := by
  intro ls
  induction ls with
  | nil =>
    intro r after _ ha
    rw [ha rfl]
    simp only [concatAll, flat, Option.map_some, List.append_nil]
    rfl
  | cons l ls ih =>
    intro r after hr _
    simp only [List.map_cons, replay, concatAll]
    have h1 := promote_is l
    cases hc : crossCtx l with
    | none => rw [hc] at h1; exact fails_bind h1
    | some c =>
      rw [hc] at h1
      have h1' : promote l = .ok c := h1
      rw [h1']
      show Is (p c r ts >>= fun x => closing x >>= fun y => replay p ts _ y.1 y.2) _
      have h2 := hp c r hr
      simp only [Option.bind_eq_bind, Option.bind_some]
      cases hb : body c with
      | none => rw [hb] at h2; exact fails_bind h2
      | some es =>
        rw [hb] at h2
        have h2' : p c r ts = .ok (r ++ flat es, .rc :: rest) := h2
        rw [h2']
        show Is (replay p ts _ (r ++ flat es) rest) _
        have h3 := ih (r ++ flat es) rest (lastPair_append_flat _ _ hr) (fun _ => rfl)
        simp only [Option.bind_some]
        cases hcat : concatAll (fun n => (crossCtx n).bind body) ls with
        | none => rw [hcat] at h3; exact h3
        | some es' =>
          rw [hcat] at h3
          have h3' : replay p ts (ls.map fun n => (n, false)) (r ++ flat es) rest = .ok _ := h3
          rw [h3']
          simp [Is, flat_append]

/-! ## The induction -/

theorem lastPair_nil : lastPair [] = false := rfl

/-! ## Concatenation -/

theorem catWord_plain (v s : Str) (q q' : Bool) :
    catWord ty (some (none, Name.plain v, q)) s q' =
      .ok (none, Name.plain (v ++ s), q' || q) := rfl

theorem catExp_part (v : Str) (q : Bool) (p : Part) (hp : p.wf) :
    (∃ s q', p = .lit s q') ∨
    ∃ x, (∀ sp, p.tok sp = .exp sp x) ∧
      catExp ty (some (none, Name.plain v, q)) x = .ok (none, Name.plain (v ++ p.text), q) ∧
      catExp ty none x = .ok (none, Name.plain p.text, false) := by
  cases p with
  | lit s q' => exact Or.inl ⟨s, q', rfl⟩
  | null => right; exact ⟨valOf none, fun _ => rfl, by simp [catExp, valOf, Part.text], rfl⟩
  | empty =>
    right
    exact ⟨valOf (some []), fun _ => rfl, by simp [catExp, valOf, flat, Part.text], rfl⟩
  | name s =>
    right
    exact ⟨_, fun _ => rfl, by simp [catExp, valOf, flat, Part.text, Name.plain],
      by simp [catExp, valOf, flat, Part.text, Name.plain]⟩
  | dir d =>
    right
    have hd : d ≠ [] := hp
    exact ⟨_, fun _ => rfl, by simp [catExp, valOf, flat, Part.text, Name.plain, hd],
      by simp [catExp, valOf, flat, Part.text, Name.plain, hd]⟩

theorem word_first {f : Nat} {c : Ctx} {cross : Bool} {ns : List FName} {n : Nat}
    {cc : Option (Option Nat × Name × Bool)} {a b : Bool} {v : Str} {q : Bool} {ts : List Tok} :
    word e ty f c cross ⟨ns, n, cc, a⟩ v q ts = word e ty f c cross ⟨ns, n, cc, b⟩ v q ts := by
  cases f with
  | zero => rw [word, word]
  | succ f => rw [word, word]

theorem continues_part (p : Part) (ts : List Tok) : continues (p.tok false :: ts) = true := by
  cases p <;> rfl

theorem lcNext_part (p : Part) (sp : Bool) (ts : List Tok) : lcNext (p.tok sp :: ts) = false := by
  cases p <;> rfl

theorem loop_catStop {f : Nat} {c : Ctx} {cross : Bool} {st : St} {n : Name} {q : Bool}
    {ts : List Tok} (hc : st.cc = some (none, n, q)) (hs : continues ts = false) :
    loop e ty (f + 1) c cross st ts = word e ty f c cross { st with cc := none } n.value q ts := by
  cases ts with
  | nil => simp [loop, hc, continues]
  | cons t ts =>
    cases t <;> (rw [loop, hc]; simp only [hs, Bool.false_eq_true, if_false]) <;> simp

theorem loop_catWord {f : Nat} {c : Ctx} {cross : Bool} {st : St} {s : Str} {q : Bool}
    {cc : Option Nat × Name × Bool} {ts : List Tok} (hc : st.cc = some cc) :
    loop e ty (f + 1) c cross st (.word false s q :: ts) =
      (catWord ty (some cc) s q >>= fun cc =>
        loop e ty f c cross { st with cc := some cc, first := false } ts) := by
  rw [loop, hc]
  rfl

theorem loop_catExp {f : Nat} {c : Ctx} {cross : Bool} {st : St} {x : Val}
    {cc : Option Nat × Name × Bool} {ts : List Tok} (hc : st.cc = some cc) :
    loop e ty (f + 1) c cross st (.exp false x :: ts) =
      (catExp ty (some cc) x >>= fun cc =>
        loop e ty f c cross { st with cc := some cc, first := false } ts) := by
  rw [loop, hc]
  rfl

theorem loop_startWord {f : Nat} {c : Ctx} {cross : Bool} {st : St} {sp : Bool} {s : Str}
    {q : Bool} {ts : List Tok} (hc : st.cc = none) (hs : continues ts = true) :
    loop e ty (f + 1) c cross st (.word sp s q :: ts) =
      (catWord ty none s q >>= fun cc =>
        loop e ty f c cross { st with cc := some cc, first := false } ts) := by
  rw [loop, hc]
  simp only [hs, if_true]

theorem loop_startExp {f : Nat} {c : Ctx} {cross : Bool} {st : St} {sp : Bool} {x : Val}
    {ts : List Tok} (hc : st.cc = none) (hs : continues ts = true ∨ lcNext ts = true) :
    loop e ty (f + 1) c cross st (.exp sp x :: ts) =
      (catExp ty none x >>= fun cc =>
        loop e ty f c cross { st with cc := some cc, first := false } ts) := by
  rw [loop, hc]
  simp only [hs, if_true]

/-- The rest of a concatenation. -/
theorem loop_cat {c : Ctx} {cross : Bool} {ns : List FName} {n : Nat} {rest : List Tok}
    (hr : continues rest = false) : ∀ (ps : List Part) (f : Nat) (v : Str) (q fst : Bool),
    (∀ p ∈ ps, p.wf) →
    ∃ q', loop e ty (f + ps.length + 1) c cross ⟨ns, n, some (none, Name.plain v, q), fst⟩
        (ps.map (Part.tok false) ++ rest) =
      word e ty f c cross ⟨ns, n, none, false⟩ (v ++ joined ps) q' rest := by
  intro ps
  induction ps with
  | nil =>
    intro f v q fst _
    refine ⟨q, ?_⟩
    rw [List.map_nil, List.nil_append, List.length_nil, Nat.add_zero,
      loop_catStop e ty rfl hr]
    simp only [joined, List.append_nil]
    exact word_first e ty
  | cons p ps ih =>
    intro f v q fst hw
    rw [List.map_cons, List.cons_append]
    have hlen : f + (p :: ps).length + 1 = (f + ps.length + 1) + 1 := by
      simp only [List.length_cons]; omega
    rw [hlen]
    rcases catExp_part ty v q p (hw p List.mem_cons_self) with ⟨s, q', rfl⟩ | ⟨x, hx, h1, _⟩
    · obtain ⟨q'', h⟩ := ih f (v ++ s) (q' || q) false (fun p hp => hw p (List.mem_cons_of_mem _ hp))
      refine ⟨q'', ?_⟩
      show loop e ty _ c cross _ (.word false s q' :: _) = _
      rw [loop_catWord e ty rfl, catWord_plain]
      simp only [joined, Part.text]
      rw [← List.append_assoc]
      exact h
    · obtain ⟨q'', h⟩ := ih f (v ++ p.text) q false (fun p hp => hw p (List.mem_cons_of_mem _ hp))
      refine ⟨q'', ?_⟩
      rw [hx, loop_catExp e ty rfl, h1]
      simp only [joined]
      rw [← List.append_assoc]
      exact h

/-- A word in one or more parts. `lc`: what follows is a group. -/
theorem loop_parts {c : Ctx} {cross sp : Bool} {ns : List FName} {n : Nat} {fst : Bool}
    {rest : List Tok} (hr : continues rest = false) (ps : List Part) (f : Nat)
    (hw : ∀ p ∈ ps, p.wf) (hps : ps ≠ []) (hwr : written ps ∨ lcNext rest = true)
    (hf : ps.length + 2 ≤ f) :
    ∃ q' g, f ≤ g + ps.length + 1 ∧
      loop e ty f c cross ⟨ns, n, none, fst⟩ (partToks sp ps ++ rest) =
      word e ty g c cross ⟨ns, n, none, false⟩ (joined ps) q' rest := by
  cases ps with
  | nil => exact absurd rfl hps
  | cons p ps =>
    obtain ⟨g, rfl⟩ : ∃ g, f = (g + ps.length + 1) + 1 :=
      ⟨f - ps.length - 2, by simp only [List.length_cons] at hf; omega⟩
    have hw' : ∀ p ∈ ps, p.wf := fun p hp => hw p (List.mem_cons_of_mem _ hp)
    unfold partToks
    rw [List.cons_append]
    rcases catExp_part ty [] false p (hw p List.mem_cons_self) with ⟨s, q, rfl⟩ | ⟨x, hx, _, h2⟩
    · cases ps with
      | nil =>
        refine ⟨q, g + 1, by simp only [List.length_cons, List.length_nil]; omega, ?_⟩
        show loop e ty (g + 1 + 1) c cross ⟨ns, n, none, fst⟩ (.word sp s q :: rest) = _
        rw [loop_word e ty rfl hr]
        simp only [joined, Part.text, List.append_nil]
        exact word_first e ty
      | cons p' ps =>
        obtain ⟨q', h⟩ := loop_cat e ty (c := c) (cross := cross) (ns := ns) (n := n) hr
          (p' :: ps) g s q false hw'
        refine ⟨q', g, by simp only [List.length_cons]; omega, ?_⟩
        show loop e ty _ c cross _ (.word sp s q :: _) = _
        rw [loop_startWord e ty rfl (by exact continues_part p' _)]
        exact h
    · have hcont : continues (ps.map (Part.tok false) ++ rest) = true ∨
          lcNext (ps.map (Part.tok false) ++ rest) = true := by
        cases ps with
        | nil =>
          rcases hwr with h | h
          · cases p <;> first | (exfalso; have := hx true; cases this; done) | exact absurd h (by simp [written])
          · exact Or.inr h
        | cons p' ps => left; exact continues_part p' _
      obtain ⟨q', h⟩ := loop_cat e ty (c := c) (cross := cross) (ns := ns) (n := n) hr
        ps g p.text false false hw'
      refine ⟨q', g, by simp only [List.length_cons]; omega, ?_⟩
      rw [hx, loop_startExp e ty rfl hcont, h2]
      exact h

theorem partToks_length (sp : Bool) (ps : List Part) : (partToks sp ps).length = ps.length := by
  cases ps <;> simp [partToks]

theorem partToks_sep {ps : List Part} (h : ps ≠ []) (sp : Bool) (rest : List Tok) :
    sepNext (partToks sp ps ++ rest) = sp := by
  cases ps with
  | nil => exact absurd rfl h
  | cons p ps => cases p <;> rfl

theorem written_ne {ps : List Part} (h : written ps) : ps ≠ [] := by
  intro h'; subst h'; exact h

theorem Item.toks_sep (cross : Bool) : ∀ (i : Item) (rest : List Tok), i.present = true →
    i.wf e cross → sepNext (i.toks true ++ rest) = true
  | .absent, _, h, _ => by cases h
  | .word w, _, _, hw => by
    unfold Item.toks
    unfold Item.wf at hw
    exact partToks_sep (written_ne hw.2.2.1) _ _
  | .exp v, _, _, _ => by unfold Item.toks; rfl
  | .group none gs, _, _, _ => by unfold Item.toks; rw [Groups.toks_eq]; rfl
  | .group (some p) gs, _, _, hw => by
    unfold Item.toks
    unfold Item.wf at hw
    rw [List.append_assoc]
    exact partToks_sep hw.1.2.2.2.2.1 _ _
  | .pair l r, rest, _, hw => by
    unfold Item.toks
    unfold Item.wf at hw
    cases hl : l.present with
    | false =>
      cases l with
      | absent => unfold Item.toks lhsSep; rfl
      | _ => cases hl
    | true =>
      rw [List.append_assoc]
      exact Item.toks_sep cross l _ hl hw.2.2.1

theorem Seq.toks_hard (s : Seq) (cross : Bool) (rest : List Tok) (hw : s.wf e cross)
    (hr : (∃ r, rest = .rc :: r) ∨ (∃ r, rest = .eos :: r)) :
    Hard (s.toks true ++ rest) := by
  cases s with
  | nil =>
    unfold Seq.toks
    exact Or.inr hr
  | cons i s =>
    unfold Seq.toks
    unfold Seq.wf at hw
    left
    rw [List.append_assoc]
    exact Item.toks_sep e cross i _ hw.1 hw.2.1

theorem emptyName_append (c : Ctx) (ns : List FName) :
    Is (appendEmpty c ns) ((emptyName c).map fun n => ns ++ [(n, false)]) :=
  appendName_is _ _ _ _ _

end Verif.NameGroup
