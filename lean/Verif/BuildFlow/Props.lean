import Verif.BuildFlow.Sound

/-!
# Conditions, switches and loops in buildfiles: properties
-/

namespace Verif.BuildFlow

variable {L : Lang}

/-! ## A small language for the examples -/

/-- The value of a switch expression: untyped or a number. -/
inductive ToyVal where
  | text (s : String)
  | num (n : Nat)
deriving DecidableEq, Repr

/-- A pattern with or without the number type as an attribute. -/
inductive ToyPat where
  | text (s : String)
  | num (n : Nat)
deriving DecidableEq, Repr

/-- Lines print a text, conditions are constants or `fewer than n texts printed`; the state is what
was printed. -/
abbrev ToyLang : Lang where
  P := String
  C := Bool ⊕ Nat
  X := String
  Q := ToyPat
  I := List String
  V := ToyVal
  E := String
  S := List String

/-- A few numbers. -/
def toNum : String → Option Nat
  | "1" => some 1
  | "01" => some 1
  | "2" => some 2
  | _ => none

/-- Matching the value and a pattern: if one of them is a number then the other becomes one
(parser.cxx:7643-7690 compare_values()). -/
def toyAlt : ToyVal → ToyPat → List String → Option (Bool × ToyVal × List String)
  | .text v, .text q, s => some (v == q, .text v, s)
  | .text v, .num n, s => (toNum v).map fun m => (m == n, .num m, s)
  | .num m, .text q, s => (toNum q).map fun n => (m == n, .num m, s)
  | .num m, .num n, s => some (m == n, .num m, s)

/-- What they do. -/
def toy : Sem ToyLang where
  run p s := if p = "fail" then none else some (s ++ [p])
  cond q s := some (match q with
    | .inl b => b
    | .inr n => decide (s.length < n), s)
  val x s := some (.text x, s)
  alt := toyAlt
  elems i s := some (i, s)
  set _ e s := some (s ++ [e])

/-! ## The main property -/

/-- **A buildfile does what its statements say**: parsing the lines of statements ends, and ends
this way, if and only if executing the statements does. So in an if-else chain only the block of the
first condition that is true (or that of the else if none is) is executed and only the conditions up
to it are evaluated; in a switch, only the block of the first arm that has a case that matches, or
the default one; the body of a for-loop is executed once for each element, in order; that of a
while-loop as long as the condition is true before each iteration; break leaves the innermost loop
and continue goes on to its next iteration, from any nesting of blocks, and outside of a loop is an
error; and what is skipped has no effect. -/
theorem parse_iff (c : Sem L) (ss : Stmts L) (s : L.S) (o : Out L.S) :
    (∃ f, pFile c f ss.lines s = some o) ↔ Exec c false (.stmts ss) s o := by
  have key : ∀ o', Exec c false (.stmts ss) s o' →
      Det (fun f => pClause c f false ss.lines s) (o'.res []) := by
    intro o' h
    have := exec_good h [] (.inl rfl)
    simpa only [List.append_nil] using this
  have file : ∀ o' f, Exec c false (.stmts ss) s o' → pClause c f false ss.lines s = some (o'.res []) →
      pFile c f ss.lines s = some o' := by
    intro o' f h hx
    rcases exec_outside h rfl with ⟨s', rfl⟩ | rfl <;> simp only [pFile, hx, Out.res]
  constructor
  · rintro ⟨f, h⟩
    cases hx : pClause c f false ss.lines s with
    | none => simp [pFile, hx] at h
    | some x =>
      obtain ⟨o', ho⟩ := (term c f).stmts false ss [] s (.inl rfl) (by simp [hx])
      have hxo := (key o' ho).eq hx
      subst hxo
      have := file o' f ho hx
      rw [h] at this
      cases this
      exact ho
  · intro h
    obtain ⟨f, hf⟩ := (key o h).ex
    exact ⟨f, file o f h hf⟩

/-- **The fuel does not matter.** -/
theorem fuel_irrelevant (c : Sem L) (ss : Stmts L) (s : L.S) {f f' : Nat} {o o' : Out L.S}
    (h : pFile c f ss.lines s = some o) (h' : pFile c f' ss.lines s = some o') : o = o' := by
  have e := (parse_iff c ss s o).1 ⟨f, h⟩
  have e' := (parse_iff c ss s o').1 ⟨f', h'⟩
  have d := exec_good e [] (.inl rfl)
  have d' := exec_good e' [] (.inl rfl)
  obtain ⟨n, hn⟩ := d.ex
  have hr := d'.eq hn
  rcases exec_outside e rfl with ⟨s1, rfl⟩ | rfl <;>
    rcases exec_outside e' rfl with ⟨s2, rfl⟩ | rfl <;> simp_all [Out.res]

/-- **Execution has one outcome.** -/
theorem exec_unique (c : Sem L) {ss : Stmts L} {s : L.S} {o o' : Out L.S}
    (h : Exec c false (.stmts ss) s o) (h' : Exec c false (.stmts ss) s o') : o = o' := by
  obtain ⟨f, hf⟩ := (parse_iff c ss s o).2 h
  obtain ⟨f', hf'⟩ := (parse_iff c ss s o').2 h'
  exact fuel_irrelevant c ss s hf hf'

/-- One line of a toy statement. -/
def out (p : String) : Simple ToyLang := .plain p

/-- A loop in which the second element is skipped, the third ends it and the chain in it has all
the kinds of branches. -/
def loop : Stmts ToyLang :=
  .cons (.for_ ["a", "b", "c"] (.block
    (.cons (.cond (.inr 2) (.one (out "first"))
        (.elif (.inr 5) (.block (.cons (.simple .cont) .nil)) (.els (.block (.cons (.simple .brk) .nil)))))
      (.cons (.simple (out "end")) .nil))))
    (.cons (.simple (out "after")) .nil)

example : Exec toy false (.stmts loop) [] (.ok ["a", "first", "end", "b", "c", "after"]) :=
  (parse_iff toy loop [] _).1 ⟨40, by rfl⟩

/-- A switch in a while-loop. -/
def counting : Stmts ToyLang :=
  .cons (.while_ (.inr 3) (.block
    (.cons (.switch "01" ["x"] (.arm ⟨(.text "1", []), []⟩ [] (.one (out "text"))
        (.arm ⟨(.num 2, [.num 1]), [(.text "x", [])]⟩ [] (.one (out "num"))
          (.dflt [] (.one (out "fail")))))) .nil)))
    .nil

example : Exec toy false (.stmts counting) [] (.ok ["num", "num", "num"]) :=
  (parse_iff toy counting [] _).1 ⟨40, by rfl⟩

/-! ## What is skipped has no effect -/

/-- **A branch that is not taken is skipped whatever is in it**: it can be replaced with any other
(with failing lines, with breaks, with loops that do not end). -/
theorem untaken_if (c : Sem L) {q : L.C} (b b' : Body L) (r : Elifs L) (ss : Stmts L) {s s' : L.S}
    (h : c.cond q s = some (false, s')) (o : Out L.S) :
    (∃ f, pFile c f (Stmts.cons (.cond q b r) ss).lines s = some o) ↔
    (∃ f, pFile c f (Stmts.cons (.cond q b' r) ss).lines s = some o) := by
  have key : ∀ (b b' : Body L) o, Exec c false (.stmts (.cons (.cond q b r) ss)) s o →
      Exec c false (.stmts (.cons (.cond q b' r) ss)) s o := by
    intro b b' o hx
    have one : ∀ o, Exec c false (.stmt (.cond q b r)) s o → Exec c false (.stmt (.cond q b' r)) s o := by
      intro o hx
      cases hx with
      | condFail h1 => rw [h] at h1; cases h1
      | condTrue h1 h2 => rw [h] at h1; cases h1
      | condFalse h1 h2 => exact .condFalse h1 h2
    cases hx with
    | consOk h1 h2 => exact .consOk (one _ h1) h2
    | consStop h1 h2 => exact .consStop (one _ h1) h2
  rw [parse_iff, parse_iff]
  exact ⟨key b b' o, key b' b o⟩

/-- **So is the rest of a chain after the branch that is taken**, and the conditions in it are not
evaluated. -/
theorem rest_of_chain (c : Sem L) {q : L.C} (b : Body L) (r r' : Elifs L) (ss : Stmts L) {s s' : L.S}
    (h : c.cond q s = some (true, s')) (o : Out L.S) :
    (∃ f, pFile c f (Stmts.cons (.cond q b r) ss).lines s = some o) ↔
    (∃ f, pFile c f (Stmts.cons (.cond q b r') ss).lines s = some o) := by
  have key : ∀ (r r' : Elifs L) o, Exec c false (.stmts (.cons (.cond q b r) ss)) s o →
      Exec c false (.stmts (.cons (.cond q b r') ss)) s o := by
    intro r r' o hx
    have one : ∀ o, Exec c false (.stmt (.cond q b r)) s o → Exec c false (.stmt (.cond q b r')) s o := by
      intro o hx
      cases hx with
      | condFail h1 => rw [h] at h1; cases h1
      | condTrue h1 h2 => exact .condTrue h1 h2
      | condFalse h1 h2 => rw [h] at h1; cases h1
    cases hx with
    | consOk h1 h2 => exact .consOk (one _ h1) h2
    | consStop h1 h2 => exact .consStop (one _ h1) h2
  rw [parse_iff, parse_iff]
  exact ⟨key r r' o, key r' r o⟩

/-- **And the rest of a switch after the arm that is taken**, patterns and blocks alike. -/
theorem rest_of_switch (c : Sem L) {x : L.X} {xs : List L.X} {k : Case L.Q} {cs : List (Case L.Q)}
    (b : Body L) (r r' : Arms L) (ss : Stmts L) {s s1 s2 : L.S} {vs vs' : List L.V}
    (hv : vals c (x :: xs) s = some (vs, s1))
    (h : matchCases c vs (k :: cs) s1 = some (true, vs', s2)) (o : Out L.S) :
    (∃ f, pFile c f (Stmts.cons (.switch x xs (.arm k cs b r)) ss).lines s = some o) ↔
    (∃ f, pFile c f (Stmts.cons (.switch x xs (.arm k cs b r')) ss).lines s = some o) := by
  have key : ∀ (r r' : Arms L) o,
      Exec c false (.stmts (.cons (.switch x xs (.arm k cs b r)) ss)) s o →
      Exec c false (.stmts (.cons (.switch x xs (.arm k cs b r')) ss)) s o := by
    intro r r' o hx
    have one : ∀ o, Exec c false (.stmt (.switch x xs (.arm k cs b r))) s o →
        Exec c false (.stmt (.switch x xs (.arm k cs b r'))) s o := by
      intro o hx
      cases hx with
      | switchFail h1 => rw [hv] at h1; cases h1
      | switch h1 h2 =>
        refine .switch h1 ?_
        rw [hv] at h1
        cases h1
        cases h2 with
        | armFail h3 => rw [h] at h3; cases h3
        | armTrue h3 h4 => exact .armTrue h3 h4
        | armFalse h3 h4 => rw [h] at h3; cases h3
    cases hx with
    | consOk h1 h2 => exact .consOk (one _ h1) h2
    | consStop h1 h2 => exact .consStop (one _ h1) h2
  rw [parse_iff, parse_iff]
  exact ⟨key r r' o, key r' r o⟩

example : (∃ f, pFile toy f (Stmts.cons (L := ToyLang) (.cond (.inl false)
    (.block (.cons (.while_ (.inl true) (.one (out "x"))) .nil)) .nil) .nil).lines [] = some (.ok [])) :=
  (untaken_if toy (.one (out "y")) _ .nil .nil (s' := []) rfl _).1 ⟨10, by rfl⟩
example : (∃ f, pFile toy f (Stmts.cons (L := ToyLang) (.cond (.inl true) (.one (out "y"))
    (.els (.one (out "fail")))) .nil).lines [] = some (.ok ["y"])) :=
  (rest_of_chain toy (.one (out "y")) .nil _ .nil (s' := []) rfl _).1 ⟨10, by rfl⟩
example : (∃ f, pFile toy f (Stmts.cons (L := ToyLang) (.switch "1" [] (.arm ⟨(.text "1", []), []⟩ []
    (.one (out "y")) (.dflt [] (.one (out "fail"))))) .nil).lines [] = some (.ok ["y"])) :=
  (rest_of_switch toy (.one (out "y")) .nil _ .nil (vs := [.text "1"]) (vs' := [.text "1"]) (s1 := [])
    (s2 := []) rfl rfl _).1 ⟨10, by rfl⟩

/-! ## Loops -/

/-- **Break outside of a loop is an error**, however deep in conditions and switches; so is
continue: nothing but going on or failing comes out of a buildfile. -/
theorem no_stray_break (c : Sem L) {ss : Stmts L} {s : L.S} {f : Nat} {o : Out L.S}
    (h : pFile c f ss.lines s = some o) : (∃ s', o = .ok s') ∨ o = .fail :=
  exec_outside ((parse_iff c ss s o).1 ⟨f, h⟩) rfl

/-- **The elements of a for-loop are taken in order, each once**: without breaks and failures the
loop over two lists of elements is the loop over the first and then over the second. -/
theorem iter_append (c : Sem L) {lp : Bool} {i : L.I} {b : Body L} (es es' : List L.E) {s : L.S}
    {o : Out L.S} (hb : ∀ s1 s2, ¬ Exec c true (.body b) s1 (.brk s2)) :
    Exec c lp (.iter i (es ++ es') b) s o ↔
      (Exec c lp (.iter i es b) s .fail ∧ o = .fail) ∨
      ∃ s', Exec c lp (.iter i es b) s (.ok s') ∧ Exec c lp (.iter i es' b) s' o := by
  induction es generalizing s with
  | nil =>
    constructor
    · intro h
      exact .inr ⟨s, .iterNil, h⟩
    · rintro (⟨h, _⟩ | ⟨s', h, h'⟩)
      · cases h
      · cases h; exact h'
  | cons e es ih =>
    constructor
    · intro h
      rw [List.cons_append] at h
      cases h with
      | iterFail h => exact .inl ⟨.iterFail h, rfl⟩
      | iterNext h h1 ho h2 =>
        rcases ih.1 h2 with ⟨h3, h4⟩ | ⟨s', h3, h4⟩
        · exact .inl ⟨.iterNext h h1 ho h3, h4⟩
        · exact .inr ⟨s', .iterNext h h1 ho h3, h4⟩
      | iterBrk h h1 => exact absurd h1 (hb _ _)
      | iterStop h h1 => exact .inl ⟨.iterStop h h1, rfl⟩
    · rintro (⟨h, rfl⟩ | ⟨s', h, h'⟩)
      · cases h with
        | iterFail h => exact .iterFail h
        | iterNext h h1 ho h2 => exact .iterNext h h1 ho (ih.2 (.inl ⟨h2, rfl⟩))
        | iterStop h h1 => exact .iterStop h h1
      · cases h with
        | iterNext h h1 ho h2 => exact .iterNext h h1 ho (ih.2 (.inr ⟨s', h2, h'⟩))
        | iterBrk h h1 => exact absurd h1 (hb _ _)

example : pFile toy 20 (Stmts.cons (L := ToyLang) (.cond (.inl true) (.one .brk) .nil) .nil).lines [] = some .fail := rfl

/-- A loop with `one` line has no breaks. -/
example : Exec toy false (.iter ([] : List String) (["a"] ++ ["b"]) (.one (out "x"))) []
    (.ok ["a", "x", "b", "x"]) :=
  (iter_append toy ["a"] ["b"] (fun s1 s2 h => by cases h with | one h => cases h)).2
    (.inr ⟨["a", "x"], .iterNext rfl (.one (.plain rfl)) (.inl rfl) .iterNil,
      .iterNext rfl (.one (.plain rfl)) (.inl rfl) .iterNil⟩)

/-! ## Braces -/

/-- **A closing brace without an opening one is an error**, whatever follows it. -/
theorem stray_brace (c : Sem L) {ss : Stmts L} {s : L.S} {o : Out L.S} (rest : List (Ln L))
    (h : Exec c false (.stmts ss) s o) : ∃ f, pFile c f (ss.lines ++ .rb :: rest) s = some .fail := by
  obtain ⟨f, hf⟩ := (exec_good h (.rb :: rest) (.inr ⟨rest, rfl⟩)).ex
  refine ⟨f, ?_⟩
  rcases exec_outside h rfl with ⟨s', rfl⟩ | rfl <;> simp only [pFile, hf, Out.res]

/-- **An opening brace without a closing one is an error**, whether the block is skipped or not. -/
theorem unclosed_block (c : Sem L) {q : L.C} {ss : Stmts L} {s s' : L.S} {t : Bool}
    (h : c.cond q s = some (t, s')) (ho : ∃ o, Exec c false (.stmts ss) s' o) :
    ∃ f, pFile c f (.ift q :: .lb :: ss.lines) s = some .fail := by
  have step : ∀ f x, pBranch c f false t (.lb :: ss.lines) s' = some x → x = .fail →
      pFile c (f + 4) (.ift q :: .lb :: ss.lines) s = some .fail := by
    rintro f x hb rfl
    simp only [pFile, pClause, pStmt, pChain, Bool.false_eq_true, if_false, h, pLink, hb]
  cases t with
  | false =>
    have hb : pBranch c 1 false false (.lb :: ss.lines) s' = some .fail := by
      have := ss.bal 0 []
      simp only [List.append_nil] at this
      simp only [pBranch, Bool.false_eq_true, if_false, this, skipBlock]
    exact ⟨_, step 1 _ hb rfl⟩
  | true =>
    obtain ⟨o, ho⟩ := ho
    obtain ⟨f, hf⟩ := (exec_good ho [] (.inl rfl)).ex
    simp only [List.append_nil] at hf
    have hb : pBranch c (f + 1) false true (.lb :: ss.lines) s' = some .fail := by
      rcases exec_outside ho rfl with ⟨s'', rfl⟩ | rfl <;>
        simp only [pBranch, if_true, hf, Out.res]
    exact ⟨_, step _ _ hb rfl⟩

/-- **A closing brace is not the body of a loop.** -/
theorem brace_not_body (c : Sem L) {i : L.I} {s s' s1 : L.S} {e : L.E} {es : List L.E}
    (r : List (Ln L)) (h : c.elems i s = some (e :: es, s')) (hs : c.set i e s' = some s1) :
    ∃ f, pFile c f (.for_ i :: .rb :: r) s = some .fail :=
  ⟨4, by simp only [pFile, pClause, pStmt, h, takeBody, pIter, hs, ends, Bool.false_eq_true, if_false]⟩

example : ∃ f, pFile toy f (loop.lines ++ .rb :: []) [] = some .fail :=
  stray_brace toy [] ((parse_iff toy loop [] (.ok ["a", "first", "end", "b", "c", "after"])).1
    ⟨40, by rfl⟩)
example : ∃ f, pFile toy f (.ift (.inl true) :: .lb :: loop.lines) [] = some .fail :=
  unclosed_block toy (s' := []) rfl ⟨_, (parse_iff toy loop [] (.ok ["a", "first", "end", "b", "c", "after"])).1
    ⟨40, by rfl⟩⟩
example : ∃ f, pFile toy f [.for_ ["a"], .rb] [] = some .fail :=
  brace_not_body toy [] (s' := []) (e := "a") (es := []) rfl rfl

/-! ## What is not so -/

/-- **A directive as the single line of a branch is executed whole but only its first line is
skipped**: with a true condition (the first half) the nested `if` is the branch and its line is
executed or not by its own condition; with a false one (the second half), the line of the nested `if`
is executed although it is in a branch that is not taken. -/
theorem nested_line_escapes :
    pFile toy 20 [.ift (.inl true), .ift (.inl false), .plain "inner", .plain "after"] [] =
      some (.ok ["after"]) ∧
    pFile toy 20 [.ift (.inl false), .ift (.inl false), .plain "inner", .plain "after"] [] =
      some (.ok ["inner", "after"]) := ⟨rfl, rfl⟩

/-- **As a result a nested `else` belongs to different conditions**: to the inner one if the outer
condition is true and to none if it is false, which is an error. -/
theorem nested_else_escapes :
    pFile toy 20 [.ift (.inl true), .ift (.inl false), .plain "a", .els, .plain "b"] [] =
      some (.ok ["b"]) ∧
    pFile toy 20 [.ift (.inl false), .ift (.inl false), .plain "a", .els, .plain "b"] [] =
      some .fail := ⟨rfl, rfl⟩

/-- **A case that does not match can change whether a later one does**: comparing with a typed
pattern makes the switch value typed. `01` does not match `1` but it does after `[uint64] 2`. -/
theorem failed_case_typifies :
    pFile toy 20 (Stmts.cons (L := ToyLang) (.switch "01" [] (.arm ⟨(.text "1", []), []⟩ [] (.one (out "one")) .nil))
      .nil).lines [] = some (.ok []) ∧
    pFile toy 20 (Stmts.cons (L := ToyLang) (.switch "01" [] (.arm ⟨(.num 2, []), []⟩ [] (.one (out "two"))
      (.arm ⟨(.text "1", []), []⟩ [] (.one (out "one")) .nil))) .nil).lines [] =
      some (.ok ["one"]) := ⟨rfl, rfl⟩

/-- **More patterns than switch expressions is an error only if those before match.** -/
theorem extra_pattern_unnoticed :
    pFile toy 20 (Stmts.cons (L := ToyLang) (.switch "a" [] (.arm ⟨(.text "a", []), [(.text "b", [])]⟩ []
      (.one (out "x")) .nil)) .nil).lines [] = some .fail ∧
    pFile toy 20 (Stmts.cons (L := ToyLang) (.switch "c" [] (.arm ⟨(.text "a", []), [(.text "b", [])]⟩ []
      (.one (out "x")) .nil)) .nil).lines [] = some (.ok []) := ⟨rfl, rfl⟩

end Verif.BuildFlow
