import Verif.Eval.Unamb

/-!
# Evaluation contexts: properties

All the theorems are for arbitrary values, functions (that can fail and can have effects) and
sources.
-/

namespace Verif.Eval

variable {A F W σ : Type}

/-! ## A small instance, for the examples -/

/-- A value: untyped text or a bool. -/
inductive V where
  | text (s : String)
  | bool (b : Bool)
deriving DecidableEq, Repr

/-- The values are texts, calling a function is logged, the function "fail" fails, comparing with a
bool is an error for the sake of having one. -/
def toy : Sem String String V (List String) where
  atom a s := some (.text a, s)
  call g vs s := if g = "fail" then none else some (vs.headD (.text ""), g :: s)
  truth
    | .bool b => some b
    | .text "true" => some true
    | .text "false" => some false
    | _ => none
  ofBool := .bool
  comp o l r := match o with
    | .eq => some (l == r)
    | .ne => some (l != r)
    | _ => none
  none := .text ""
  truth_ofBool _ := rfl

/-- `$f(true) || $fail()` and the rest of the line. -/
def src1 : List (Tok String String) :=
  [.fn "f", .lp, .atom "true", .rp, .or, .fn "fail", .lp, .rp]

/-- What it stands for. -/
def ex1 : Ex String String := .or (.call "f" (.cons (.atom "true") .nil)) (.call "fail" .nil)

theorem ex1_written : WrittenAll (.cons ex1 .nil) src1 :=
  .some (.one (.orTern (.or (t := [.fn "f", .lp, .atom "true", .rp])
    (.andOr (.cmpAnd (.valCmp (.call (t := [.atom "true"]) (.some (.one (.orTern (.andOr (.cmpAnd
      (.valCmp (.atom _)))))) (by simp))))))
    (.cmpAnd (.valCmp (.call (t := []) .nil)))))) (by simp [src1])

/-! ## One reading -/

/-- **What is written up to the closing parenthesis has one reading**: the precedence and the
associativity leave no choice, and the closing parenthesis is found without looking further. -/
theorem reading_unique {es es' : Exs A F} {t t' r r' : List (Tok A F)} (h : WrittenAll es t)
    (h' : WrittenAll es' t') (he : t ++ .rp :: r = t' ++ .rp :: r') :
    es = es' ∧ t = t' ∧ r = r' :=
  written_unique h h' he

example : ∀ es, WrittenAll es src1 → es = .cons ex1 .nil :=
  fun _ h => (reading_unique (r := []) (r' := []) h ex1_written rfl).1

/-- `a || b && c`: `&&` binds stronger. -/
theorem and_before_or (a b d : A) {es : Exs A F}
    (h : WrittenAll es [.atom a, .or, .atom b, .and, .atom d]) :
    es = .cons (.or (.atom a) (.and (.atom b) (.atom d))) .nil :=
  (reading_unique (r := []) (r' := []) h (.some (.one (.orTern (.or (t := [.atom a])
    (.andOr (.cmpAnd (.valCmp (.atom a)))) (.and (t := [.atom b]) (.cmpAnd (.valCmp (.atom b)))
      (.valCmp (.atom d)))))) (by simp)) rfl).1

/-- `a && b || c`: the same. -/
theorem and_before_or' (a b d : A) {es : Exs A F}
    (h : WrittenAll es [.atom a, .and, .atom b, .or, .atom d]) :
    es = .cons (.or (.and (.atom a) (.atom b)) (.atom d)) .nil :=
  (reading_unique (r := []) (r' := []) h (.some (.one (.orTern (.or (t := [.atom a, .and, .atom b])
    (.andOr (.and (t := [.atom a]) (.cmpAnd (.valCmp (.atom a))) (.valCmp (.atom b))))
      (.cmpAnd (.valCmp (.atom d)))))) (by simp)) rfl).1

/-- `!a == b`: `!` binds stronger than the comparison. -/
theorem not_before_cmp (a b : A) (o : Op) {es : Exs A F}
    (h : WrittenAll es [.not, .atom a, .cmp o, .atom b]) :
    es = .cons (.cmp o (.not (.atom a)) (.atom b)) .nil :=
  (reading_unique (r := []) (r' := []) h (.some (.one (.orTern (.andOr (.cmpAnd
    (.cmp (t := [.not, .atom a]) (.valCmp (.not (.atom a))) (.atom b)))))) (by simp)) rfl).1

/-- `a < b == c`: the comparisons are left-associative and all of the same precedence. -/
theorem cmp_left (a b d : A) (o o' : Op) {es : Exs A F}
    (h : WrittenAll es [.atom a, .cmp o, .atom b, .cmp o', .atom d]) :
    es = .cons (.cmp o' (.cmp o (.atom a) (.atom b)) (.atom d)) .nil :=
  (reading_unique (r := []) (r' := []) h (.some (.one (.orTern (.andOr (.cmpAnd
    (.cmp (t := [.atom a, .cmp o, .atom b]) (.cmp (t := [.atom a]) (.valCmp (.atom a)) (.atom b))
      (.atom d)))))) (by simp)) rfl).1

/-- `a ? b : c ? d : e`: the ternary operator is right-associative. -/
theorem tern_right (a b d e g : A) {es : Exs A F}
    (h : WrittenAll es
      [.atom a, .question, .atom b, .colon, .atom d, .question, .atom e, .colon, .atom g]) :
    es = .cons (.tern (.atom a) (.atom b) (.tern (.atom d) (.atom e) (.atom g))) .nil := by
  have v : ∀ x : A, Written (F := F) .or (.atom x) [.atom x] :=
    fun x => .andOr (.cmpAnd (.valCmp (.atom x)))
  exact (reading_unique (r := []) (r' := []) h (.some (.one (.tern (t := [.atom a])
    (t' := [.atom b]) (v a) (.orTern (v b)) (.tern (t := [.atom d]) (t' := [.atom e]) (v d)
      (.orTern (v e)) (.orTern (v g))))) (by simp)) rfl).1

example : WrittenAll (F := String) (.cons (.or (.atom "a") (.and (.atom "b") (.atom "c"))) .nil)
    [.atom "a", .or, .atom "b", .and, .atom "c"] :=
  .some (.one (.orTern (.or (t := [.atom "a"]) (.andOr (.cmpAnd (.valCmp (.atom _))))
    (.and (t := [.atom "b"]) (.cmpAnd (.valCmp (.atom _))) (.valCmp (.atom _)))))) (by simp)

/-! ## Evaluating -/

/-- **What the parser accepts, the values it comes up with, the effects it has had and what it
leaves are exactly those of an expression that is written there.** -/
theorem eval_iff (c : Sem A F W σ) (ts r : List (Tok A F)) (s s' : σ) (vs : List W) :
    (∃ f, pEval c f false ts s = some (vs, r, s')) ↔
      ∃ es t, WrittenAll es t ∧ ts = t ++ .rp :: r ∧ es.eval c s = some (vs, s') := by
  constructor
  · rintro ⟨f, h⟩
    obtain ⟨es, t, h1, h2, h3⟩ := (parse_sound c f).1.1 false ts s vs r s' h
    exact ⟨es, t, h1, h2, h3.2 rfl⟩
  · rintro ⟨es, t, h1, rfl, h2⟩
    obtain ⟨ws, hws, N, h3⟩ := parse_complete c h1 false s vs s' r ⟨(fun h => by cases h), fun _ => h2⟩
    cases hws rfl
    exact ⟨N, h3 N (Nat.le_refl _)⟩

/-- **A written expression is evaluated as the specification says**, including that if evaluating
it fails then so does the parser. -/
theorem written_evaluates (c : Sem A F W σ) {es : Exs A F} {t : List (Tok A F)} (h : WrittenAll es t)
    (r r' : List (Tok A F)) (s s' : σ) (vs : List W) :
    (∃ f, pEval c f false (t ++ .rp :: r) s = some (vs, r', s')) ↔
      r' = r ∧ es.eval c s = some (vs, s') := by
  rw [eval_iff]
  constructor
  · rintro ⟨es', t', h1, h2, h3⟩
    obtain ⟨rfl, rfl, rfl⟩ := reading_unique h h1 h2
    exact ⟨rfl, h3⟩
  · rintro ⟨rfl, h3⟩
    exact ⟨es, t, h, rfl, h3⟩

example : pEval toy 20 false (src1 ++ [.rp, .atom "rest"]) [] =
    some ([.text "true"], [.atom "rest"], ["f"]) := by rfl
example : (Exs.cons ex1 .nil).eval toy [] = some ([.text "true"], ["f"]) := by rfl
example : ∃ f, pEval toy f false (src1 ++ .rp :: [.atom "rest"]) [] =
    some ([.text "true"], [.atom "rest"], ["f"]) :=
  (written_evaluates toy ex1_written _ _ _ _ _).2 ⟨rfl, rfl⟩

/-- **The result does not depend on the fuel** (the code has none). -/
theorem fuel_irrelevant (c : Sem A F W σ) {f f' : Nat} {ts : List (Tok A F)} {s : σ}
    {x y : List W × List (Tok A F) × σ} (hx : pEval c f false ts s = some x)
    (hy : pEval c f' false ts s = some y) : x = y := by
  obtain ⟨vs, r, s1⟩ := x
  obtain ⟨ws, r', s2⟩ := y
  obtain ⟨es, t, h1, rfl, h2⟩ := (eval_iff c _ _ _ _ _).1 ⟨f, hx⟩
  obtain ⟨rfl, h3⟩ := (written_evaluates c h1 _ _ _ _ _).1 ⟨f', hy⟩
  rw [h2] at h3
  cases h3
  rfl

example : pEval toy 15 false (src1 ++ [.rp]) [] = pEval toy 20 false (src1 ++ [.rp]) [] := by rfl

/-! ## Skipping -/

/-- **What is skipped (pre-parsed) is accepted exactly if it is written as an expression, it ends
where it would if it was evaluated, and it has no effects**: no value is evaluated, no function is
called and nothing that evaluation would fail on matters. -/
theorem preparse_iff (c : Sem A F W σ) (ts r : List (Tok A F)) (s s' : σ) :
    (∃ f vs, pEval c f true ts s = some (vs, r, s')) ↔
      s' = s ∧ ∃ es t, WrittenAll (A := A) (F := F) es t ∧ ts = t ++ .rp :: r := by
  constructor
  · rintro ⟨f, vs, h⟩
    obtain ⟨es, t, h1, h2, h3⟩ := (parse_sound c f).1.1 true ts s vs r s' h
    exact ⟨h3.1 rfl, es, t, h1, h2⟩
  · rintro ⟨rfl, es, t, h1, rfl⟩
    obtain ⟨ws, _, N, h3⟩ := parse_complete c h1 true s' [] s' r ⟨fun _ => rfl, fun h => by cases h⟩
    exact ⟨N, ws, h3 N (Nat.le_refl _)⟩

example : ∃ f vs, pEval toy f true (src1 ++ [.rp]) [] = some (vs, [], []) :=
  (preparse_iff toy _ _ _ _).2 ⟨rfl, _, _, ex1_written, rfl⟩

/-- So what can be evaluated can be skipped, and the parser continues from the same place. -/
theorem skip_same_place (c : Sem A F W σ) {f : Nat} {ts r : List (Tok A F)} {s s' : σ} {vs : List W}
    (h : pEval c f false ts s = some (vs, r, s')) (s0 : σ) :
    ∃ f' ws, pEval c f' true ts s0 = some (ws, r, s0) := by
  obtain ⟨es, t, h1, h2, _⟩ := (eval_iff c _ _ _ _ _).1 ⟨f, h⟩
  exact (preparse_iff c _ _ _ _).2 ⟨rfl, es, t, h1, h2⟩

example : ∃ f' ws, pEval toy f' true (src1 ++ [.rp, .comma]) ["x"] = some (ws, [.comma], ["x"]) :=
  skip_same_place toy (f := 20) (s := []) (vs := [.text "true"]) (s' := ["f"]) (by rfl) _

/-! ## Short circuit -/

/-- A single expression. -/
theorem single_evaluates (c : Sem A F W σ) {e : Ex A F} {t : List (Tok A F)} (h : Written .tern e t)
    (ht : t ≠ []) (r r' : List (Tok A F)) (s s' : σ) (vs : List W) :
    (∃ f, pEval c f false (t ++ .rp :: r) s = some (vs, r', s')) ↔
      ∃ v, r' = r ∧ vs = [v] ∧ e.eval c s = some (v, s') := by
  rw [written_evaluates c (.some (.one h) ht)]
  simp only [Exs.eval]
  constructor
  · rintro ⟨rfl, h⟩
    cases he : e.eval c s with
    | none => rw [he] at h; cases h
    | some x =>
      rw [he] at h
      simp only [Option.map_some, Option.some.injEq, Prod.mk.injEq] at h
      exact ⟨x.1, rfl, h.1.symm, by rw [← h.2]⟩
  · rintro ⟨v, rfl, rfl, h⟩
    simp [h]

/-- **If the left-hand side of `||` is true then the right-hand side is not evaluated**: it does
not matter what it is, provided it is an expression. -/
theorem or_short (c : Sem A F W σ) {l r : Ex A F} {t t' : List (Tok A F)} (hl : Written .or l t)
    (hr : Written .and r t') {s s' : σ} {v : W} (he : l.eval c s = some (v, s'))
    (hv : c.truth v = some true) (rest : List (Tok A F)) :
    ∃ f, pEval c f false ((t ++ .or :: t') ++ .rp :: rest) s = some ([v], rest, s') := by
  rw [single_evaluates c (.orTern (.or hl hr)) (by simp)]
  exact ⟨v, rfl, rfl, by simp only [Ex.eval, he, hv]⟩

/-- **The same for `&&`** if the left-hand side is false. -/
theorem and_short (c : Sem A F W σ) {l r : Ex A F} {t t' : List (Tok A F)} (hl : Written .and l t)
    (hr : Written .cmp r t') {s s' : σ} {v : W} (he : l.eval c s = some (v, s'))
    (hv : c.truth v = some false) (rest : List (Tok A F)) :
    ∃ f, pEval c f false ((t ++ .and :: t') ++ .rp :: rest) s = some ([v], rest, s') := by
  rw [single_evaluates c (.orTern (.andOr (.and hl hr))) (by simp)]
  exact ⟨v, rfl, rfl, by simp only [Ex.eval, he, hv]⟩

/-- **Only one of the alternatives of the ternary operator is evaluated.** -/
theorem tern_one (c : Sem A F W σ) {q m e : Ex A F} {t t' t'' : List (Tok A F)}
    (hq : Written .or q t) (hm : Written .tern m t') (he : Written .tern e t'') {s s' s'' : σ}
    {v w : W} {b : Bool} (h1 : q.eval c s = some (v, s')) (h2 : c.truth v = some b)
    (h3 : (if b then m else e).eval c s' = some (w, s'')) (rest : List (Tok A F)) :
    ∃ f, pEval c f false ((t ++ .question :: (t' ++ .colon :: t'')) ++ .rp :: rest) s =
      some ([w], rest, s'') := by
  rw [single_evaluates c (.tern hq hm he) (by simp)]
  refine ⟨w, rfl, rfl, ?_⟩
  cases b with
  | true => simpa only [Ex.eval, h1, h2, if_true] using h3
  | false => simpa only [Ex.eval, h1, h2, Bool.false_eq_true, if_false] using h3

example : ∃ f, pEval toy f false (([.atom "true"] ++ .or :: [.fn "fail", .lp, .rp]) ++ .rp :: []) [] =
    some ([.text "true"], [], []) :=
  or_short toy (.andOr (.cmpAnd (.valCmp (.atom "true"))))
    (.cmpAnd (.valCmp (.call (t := []) .nil))) (by rfl) (by rfl) []
example : ∃ f, pEval toy f false (([.atom "false"] ++ .and :: [.fn "fail", .lp, .rp]) ++ .rp :: []) [] =
    some ([.text "false"], [], []) :=
  and_short toy (.cmpAnd (.valCmp (.atom "false"))) (.valCmp (.call (t := []) .nil)) (by rfl)
    (by rfl) []
example : ∃ f, pEval toy f false
    (([.atom "false"] ++ .question :: ([.fn "fail", .lp, .rp] ++ .colon :: [.atom "b"])) ++ .rp :: []) [] =
    some ([.text "b"], [], []) :=
  tern_one toy (.andOr (.cmpAnd (.valCmp (.atom "false"))))
    (.orTern (.andOr (.cmpAnd (.valCmp (.call (t := []) .nil)))))
    (.orTern (.andOr (.cmpAnd (.valCmp (.atom "b"))))) (by rfl) (by rfl) (by rfl) []

/-- **Otherwise `||` is the disjunction**: whatever is evaluated, the result converts to the
disjunction of what the two sides convert to. -/
theorem or_truth (c : Sem A F W σ) {l r : Ex A F} {s s1 s2 : σ} {v w : W} {b b' : Bool}
    (hl : l.eval c s = some (v, s1)) (hv : c.truth v = some b) (hr : r.eval c s1 = some (w, s2))
    (hw : c.truth w = some b') :
    ∃ x s', (Ex.or l r).eval c s = some (x, s') ∧ c.truth x = some (b || b') := by
  cases b with
  | true => exact ⟨v, s1, by simp only [Ex.eval, hl, hv], hv⟩
  | false =>
    exact ⟨c.ofBool b', s2, by simp only [Ex.eval, hl, hv, hr, hw, Option.map_some],
      c.truth_ofBool b'⟩

/-- **And `&&` is the conjunction.** -/
theorem and_truth (c : Sem A F W σ) {l r : Ex A F} {s s1 s2 : σ} {v w : W} {b b' : Bool}
    (hl : l.eval c s = some (v, s1)) (hv : c.truth v = some b) (hr : r.eval c s1 = some (w, s2))
    (hw : c.truth w = some b') :
    ∃ x s', (Ex.and l r).eval c s = some (x, s') ∧ c.truth x = some (b && b') := by
  cases b with
  | false => exact ⟨v, s1, by simp only [Ex.eval, hl, hv], hv⟩
  | true =>
    exact ⟨c.ofBool b', s2, by simp only [Ex.eval, hl, hv, hr, hw, Option.map_some],
      c.truth_ofBool b'⟩

example : ∃ x s', (Ex.or (.atom "false") (.atom "true")).eval toy [] = some (x, s') ∧
    toy.truth x = some true :=
  or_truth toy (b := false) (b' := true) (l := .atom "false") (r := .atom "true") (s := []) (v := .text "false") (w := .text "true") (s1 := [])
    (s2 := []) (by rfl) (by rfl) (by rfl) (by rfl)

/-! ## What is not so -/

/-- **But the result of `||` is not always a bool**: if the left-hand side decides it then the
result is the left-hand side as it was, not converted, so `(true || false)` is the untyped text
`true`, while `(false || true)` is a bool. -/
theorem short_circuit_unconverted :
    pEval toy 20 false [.atom "true", .or, .atom "false", .rp] [] = some ([.text "true"], [], []) ∧
    pEval toy 20 false [.atom "false", .or, .atom "true", .rp] [] = some ([.bool true], [], []) ∧
    pEval toy 20 false [.atom "false", .and, .atom "true", .rp] [] =
      some ([.text "false"], [], []) ∧
    pEval toy 20 false [.atom "true", .and, .atom "false", .rp] [] =
      some ([.bool false], [], []) := by
  refine ⟨?_, ?_, ?_, ?_⟩ <;> rfl

end Verif.Eval
