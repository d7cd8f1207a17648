import Verif.NameGroup.Induct
import Verif.NameGroup.Fuel
/-!
# Names: the properties

C56: the names that a sequence of words, groups, crosses, expansions, and
pairs stands for.
-/

namespace Verif.NameGroup

variable (e : Env) (ty : Typed)

/-- **C56, in part.** Parsing a sequence of names as the user writes it
gives exactly the names it stands for, with nothing left, and fails if and
only if it stands for nothing. For every sequence, at any depth, any paths,
and any qualification. Not covered (`Seq.wf`; see the witnesses below):
crosses inside of groups and crosses of pairs, pairs of pairs or with an
expansion of other than one name, a prefix that is only a project, and
typed concatenation. -/
theorem parse_names_partial (i : Item) (s : Seq) (h : (Seq.cons i s).wf e true) :
    match (Seq.cons i s).den e Ctx.none with
    | some es => parse e ty ((Seq.cons i s).toks false ++ [.eos]) = .ok (flat es, [.eos])
    | none => ∃ er, parse e ty ((Seq.cons i s).toks false ++ [.eos]) = .error er := by
  have hr := seq_runs e ty (.cons i s) true h _ Ctx.none false [] 0 true [.eos] rfl
    (Or.inr rfl) (fun h => by cases h) (Or.inr ⟨[], rfl⟩) (Nat.le_refl _)
  cases hd : (Seq.cons i s).den e Ctx.none with
  | none =>
    rw [hd] at hr
    exact hr
  | some es =>
    rw [hd] at hr
    obtain ⟨g, n, hg, _, h1⟩ := hr
    obtain ⟨g, rfl⟩ : ∃ g', g = g' + 1 := ⟨g - 1, by unfold B at hg; simp at hg; omega⟩
    show loop e ty (B _) _ _ _ _ = _
    rw [h1]
    exact loop_end e ty (lastPair_append_flat [] es rfl) (Or.inr ⟨[], rfl⟩)

/-- The parser stops on every sequence of tokens, well formed or not. -/
theorem parse_stops (ts : List Tok) : parse e ty ts ≠ .error .fuel := parse_live e ty ts

/-! ## What this says about the usual forms -/

/-- A string without `/` and `%`. -/
def bare (s : Str) : Prop := s ≠ [] ∧ '/' ∉ s ∧ '%' ∉ s

/-- A word written literally. -/
def lit (s : Str) : Item := .word ⟨none, s, [.lit s false]⟩

/-- Words separated with white space. -/
def lits : List Str → Seq
  | [] => .nil
  | s :: ss => .cons (lit s) (lits ss)

theorem lits_wf (cross : Bool) : ∀ ss : List Str, (∀ s ∈ ss, bare s) → (lits ss).wf e cross
  | [], _ => by unfold lits Seq.wf; trivial
  | s :: ss, h => by
    have hs := h s List.mem_cons_self
    unfold lits lit Seq.wf
    refine ⟨rfl, ?_, lits_wf cross ss (fun x hx => h x (List.mem_cons_of_mem _ hx))⟩
    unfold Item.wf
    refine ⟨trivial, hs.2.2, trivial, fun p hp => ?_, by simp [joined, Part.text, Word.str, projText]⟩
    cases hp with
    | head => trivial
    | tail _ hp => cases hp

theorem lits_simple : ∀ ss : List Str, (lits ss).simple = true
  | [] => by unfold lits Seq.simple; rfl
  | s :: ss => by
    unfold lits lit Seq.simple Item.simple
    exact lits_simple ss

theorem bare_noslash {s : Str} (h : bare s) : endsSlash s = false := by
  unfold endsSlash
  cases hl : s.getLast? with
  | none => rfl
  | some x =>
    have := List.mem_of_getLast? hl
    have hx : x ≠ '/' := fun hx => h.2.1 (hx ▸ this)
    simp [hx]

theorem lits_den (c : Ctx) : ∀ ss : List Str, (∀ s ∈ ss, bare s) →
    (lits ss).den e c =
      some (ss.map fun s => Elem.single ⟨c.proj, c.dir.getD [], c.type.getD [], s⟩)
  | [], _ => by unfold lits Seq.den; rfl
  | s :: ss, h => by
    have hs := h s List.mem_cons_self
    unfold lits lit Seq.den Item.den
    rw [lits_den c ss (fun x hx => h x (List.mem_cons_of_mem _ hx))]
    have hp : atMostOne c.proj none = some c.proj := by cases c.proj <;> rfl
    simp [wordName, hp, bare_noslash hs, accept, Name.ok, hs.1]

theorem lits_body (c : Ctx) (ss : List Str) (hne : ss ≠ []) (h : ∀ s ∈ ss, bare s) :
    (lits ss).body e c =
      some (ss.map fun s => Elem.single ⟨c.proj, c.dir.getD [], c.type.getD [], s⟩) := by
  rw [← lits_den e c ss h]
  cases ss with
  | nil => exact absurd rfl hne
  | cons s ss => simp only [lits, Seq.body, Seq.den]

theorem flat_map_single : ∀ ns : List Name, flat (ns.map Elem.single) = ns.map (·, false)
  | [] => rfl
  | n :: ns => by simp [flat, flat_map_single ns]

theorem flat_pairs (a : Name) : ∀ ns : List Name,
    flat (ns.map (Elem.pair a)) = ns.flatMap fun n => [(a, true), (n, false)]
  | [] => rfl
  | n :: ns => by simp [flat, flat_pairs a ns]

theorem singles_single : ∀ ns : List Name, singles (ns.map Elem.single) = some ns
  | [] => rfl
  | n :: ns => by simp [singles, singles_single ns]

/-- `a b c` -/
theorem words (ss : List Str) (hne : ss ≠ []) (h : ∀ s ∈ ss, bare s) :
    parse e ty ((lits ss).toks false ++ [.eos]) =
      .ok (ss.map fun s => (Name.plain s, false), [.eos]) := by
  cases ss with
  | nil => exact absurd rfl hne
  | cons s ss =>
    have := parse_names_partial e ty (lit s) (lits ss) (lits_wf e true (s :: ss) h)
    rw [show Seq.cons (lit s) (lits ss) = lits (s :: ss) from rfl, lits_den e _ _ h] at this
    rw [this, show (fun s => Elem.single ⟨Ctx.none.proj, Ctx.none.dir.getD [],
      Ctx.none.type.getD [], s⟩) = Elem.single ∘ Name.plain from rfl, ← List.map_map, flat_map_single,
      List.map_map]
    rfl

/-- `p%d/t{a b c}`: every name is qualified with the project, the directory,
and the type of the prefix. -/
theorem group_qualifies (p d D t : Str) (ss : List Str) (hp : e.validProj p = true)
    (hd : '%' ∉ d) (hD : e.mkDir (d ++ ['/']) = some D) (ht : bare t) (hne : ss ≠ [])
    (h : ∀ s ∈ ss, bare s) :
    parse e ty (.word false (p ++ '%' :: d ++ '/' :: t) false :: .lc false ::
        (lits ss).toks false ++ [.rc, .eos]) =
      .ok (ss.map fun s => (⟨some p, D, t, s⟩, false), [.eos]) := by
  let pre : Pre := ⟨some p, some d, some t, [.lit (p ++ '%' :: d ++ '/' :: t) false]⟩
  have hw : (Seq.cons (.group (some pre) (.one (lits ss))) .nil).wf e true := by
    simp only [Seq.wf, Item.wf, Groups.wf]
    refine ⟨rfl, ⟨⟨Or.inr hp, fun hx => (by cases hx), fun x hx => ?_, fun x hx => ?_,
      by simp [pre], fun q hq => ?_, ?_⟩, lits_wf e false ss h⟩, trivial⟩
    · cases hx; exact hd
    · cases hx; exact ⟨ht.1, ht.2.2, ht.2.1⟩
    · cases hq with
      | head => trivial
      | tail _ hq => cases hq
    · simp [pre, joined, Part.text, Pre.str, Pre.rest, projText]
  have := parse_names_partial e ty _ _ hw
  have hden : (Seq.cons (.group (some pre) (.one (lits ss))) .nil).den e Ctx.none =
      some ((ss.map fun s => (⟨some p, D, t, s⟩ : Name)).map Elem.single) := by
    simp only [Seq.den, Item.den, Groups.den]
    rw [show preCtx e Ctx.none pre = some ⟨some p, some D, some t⟩ by
      simp [preCtx, pre, Ctx.none, atMostOne, preDir, hD, inDir]]
    show (do let x ← (lits ss).body e ⟨some p, some D, some t⟩; let y ← some []; some (x ++ y)) = _
    rw [lits_body e _ ss hne h]
    simp [Function.comp_def]
  rw [hden] at this
  simp only [Seq.toks, Item.toks, Groups.toks] at this
  rw [flat_map_single, List.map_map] at this
  simpa [pre, partToks, Part.tok, Function.comp_def] using this

theorem concatAll_pure {α : Type} (f : α → List Elem) : ∀ as : List α,
    concatAll (fun a => some (f a)) as = some (as.flatMap f)
  | [] => rfl
  | a :: as => by simp [concatAll, concatAll_pure f as]

theorem concatAll_congr {α : Type} {f g : α → Option (List Elem)} : ∀ as : List α,
    (∀ a ∈ as, f a = g a) → concatAll f as = concatAll g as
  | [], _ => rfl
  | a :: as, h => by
    rw [concatAll, concatAll, h a List.mem_cons_self,
      concatAll_congr as fun x hx => h x (List.mem_cons_of_mem _ hx)]

/-- `{hxx cxx}{a b}`: every type with every name, the types in the outer
loop. -/
theorem cross_product (ts ss : List Str) (hts : ts ≠ []) (hss : ss ≠ [])
    (ht : ∀ t ∈ ts, bare t) (hs : ∀ s ∈ ss, bare s) :
    parse e ty (.lc false :: ((lits ts).toks false ++ .rc :: .lc false ::
        ((lits ss).toks false ++ [.rc, .eos]))) =
      .ok (ts.flatMap fun t => ss.map fun s => (⟨none, [], t, s⟩, false), [.eos]) := by
  have hw : (Seq.cons (.group none (.more (.one (lits ts)) (lits ss))) .nil).wf e true := by
    simp only [Seq.wf, Item.wf, Groups.wf]
    refine ⟨rfl, ⟨trivial, lits_wf e false ts ht, ?_, lits_wf e false ss hs⟩, trivial⟩
    unfold Groups.simple
    exact lits_simple ts
  have := parse_names_partial e ty _ _ hw
  have hden : (Seq.cons (.group none (.more (.one (lits ts)) (lits ss))) .nil).den e Ctx.none =
      some ((ts.flatMap fun t => ss.map fun s => (⟨none, [], t, s⟩ : Name)).map Elem.single) := by
    simp only [Seq.den, Item.den, Groups.den]
    rw [lits_body e _ ts hts ht]
    rw [show (fun s => Elem.single ⟨Ctx.none.proj, Ctx.none.dir.getD [],
      Ctx.none.type.getD [], s⟩) = Elem.single ∘ Name.plain from rfl, ← List.map_map]
    have hc : concatAll (fun n => do (lits ss).body e (← crossCtx n)) (ts.map Name.plain) =
        some ((ts.map Name.plain).flatMap fun n =>
          ss.map fun s => Elem.single ⟨none, [], n.value, s⟩) := by
      rw [← concatAll_pure]
      refine concatAll_congr _ fun n hn => ?_
      obtain ⟨t, htm, rfl⟩ := List.mem_map.1 hn
      rw [show crossCtx (Name.plain t) = some ⟨none, none, some t⟩ by
        simp [crossCtx, Name.plain, (ht t htm).1]]
      exact lits_body e _ ss hss hs
    cases ts with
    | nil => exact absurd rfl hts
    | cons t ts =>
      simp only [singles_single, Option.bind_eq_bind, Option.bind_some] at hc ⊢
      simp only [List.map_cons] at hc ⊢
      rw [hc]
      simp [List.map_flatMap, List.flatMap_map, Name.plain, Function.comp_def]
  rw [hden] at this
  simp only [Seq.toks, Item.toks, Groups.toks] at this
  rw [flat_map_single] at this
  simpa [Function.comp_def, List.map_flatMap] using this

/-- `x@{a b c}`: a pair for each name. -/
theorem pair_distributes (x : Str) (ss : List Str) (hx : bare x) (hss : ss ≠ [])
    (hs : ∀ s ∈ ss, bare s) :
    parse e ty (.word false x false :: .at false :: .lc false ::
        ((lits ss).toks false ++ [.rc, .eos])) =
      .ok (ss.flatMap fun s => [(Name.plain x, true), (Name.plain s, false)], [.eos]) := by
  have hxw : (lit x).wf e true := by
    have := lits_wf e true [x] (fun s h => by
      cases h with
      | head => exact hx
      | tail _ h => cases h)
    unfold lits Seq.wf at this
    exact this.2.1
  have hw : (Seq.cons (.pair (lit x) (.group none (.one (lits ss)))) .nil).wf e true := by
    simp only [Seq.wf, Item.wf, Groups.wf]
    exact ⟨rfl, ⟨rfl, rfl, hxw, lits_wf e false ss hs⟩, trivial⟩
  have := parse_names_partial e ty _ _ hw
  have hden : (Seq.cons (.pair (lit x) (.group none (.one (lits ss)))) .nil).den e Ctx.none =
      some ((ss.map Name.plain).map (Elem.pair (Name.plain x))) := by
    have h1 : (lit x).den e Ctx.none = some [.single (Name.plain x)] := by
      have := lits_den e Ctx.none [x] (fun s h => by
        cases h with
        | head => exact hx
        | tail _ h => cases h)
      unfold lits Seq.den lits Seq.den at this
      cases hd : (lit x).den e Ctx.none with
      | none => rw [hd] at this; cases this
      | some y => rw [hd] at this; simpa [Name.plain, Ctx.none] using this
    have h2 : (Item.group none (.one (lits ss))).den e Ctx.none =
        some ((ss.map Name.plain).map Elem.single) := by
      unfold Item.den Groups.den
      rw [lits_body e _ ss hss hs, List.map_map]
      rfl
    rw [Seq.den, Seq.den, Item.den, h1, h2]
    simp only [Option.bind_eq_bind, Option.bind_some, lhsName, singles_single, List.append_nil]
  rw [hden] at this
  simp only [Seq.toks, Item.toks, Groups.toks, lit] at this
  simp only [flat_pairs, List.flatMap_map] at this
  simpa [Item.toks, partToks, Part.tok, lhsSep] using this

/-- `$x$y..`: a word in several parts, literal or not, is what the word in
one part is. -/
theorem concat_is_word (w : Word) (q : Bool) (h : w.wf e) :
    (parse e ty (partToks false w.parts ++ [.eos])).toOption =
      (parse e ty [.word false w.str q, .eos]).toOption := by
  let w' : Word := ⟨w.proj, w.text, [.lit w.str q]⟩
  have hw' : w'.wf e := by
    refine ⟨h.1, h.2.1, trivial, fun p hp => ?_, by simp [joined, Part.text, Word.str, w']⟩
    cases hp with
    | head => trivial
    | tail _ hp => cases hp
  have wf1 : ∀ w : Word, w.wf e → (Seq.cons (.word w) .nil).wf e true := fun w hw => by
    unfold Seq.wf Item.wf Seq.wf
    exact ⟨rfl, hw, trivial⟩
  have h1 := parse_names_partial e ty _ _ (wf1 w h)
  have h2 := parse_names_partial e ty _ _ (wf1 w' hw')
  have hd : (Seq.cons (.word w) .nil).den e Ctx.none = (Seq.cons (.word w') .nil).den e Ctx.none := by
    unfold Seq.den Item.den
    rfl
  rw [hd] at h1
  unfold Seq.toks Item.toks Seq.toks at h1 h2
  cases hx : (Seq.cons (.word w') .nil).den e Ctx.none with
  | none =>
    rw [hx] at h1 h2
    obtain ⟨e1, h1⟩ := h1
    obtain ⟨e2, h2⟩ := h2
    simp only [List.append_nil] at h1 h2
    rw [h1, show [Tok.word false w.str q, .eos] = partToks false w'.parts ++ [.eos] from rfl, h2]
    rfl
  | some es =>
    rw [hx] at h1 h2
    simp only [List.append_nil] at h1 h2
    rw [h1, show [Tok.word false w.str q, .eos] = partToks false w'.parts ++ [.eos] from rfl, h2]

/-- Whatever the tokens, the last name is never the first half of a pair:
a pair without a second half gets the empty name. -/
theorem no_half_pair (ts : List Tok) (ns : List FName) (rest : List Tok)
    (h : parse e ty ts = .ok (ns, rest)) : lastPair ns = false := by
  have hfin : ∀ c ns ts r, finish c ns ts = .ok r → lastPair r.1 = false := by
    intro c ns ts r hr
    unfold finish at hr
    split at hr
    · unfold appendEmpty appendName at hr
      split at hr
      · cases hr
      · cases hr; simp [lastPair]
    · rename_i hl
      cases hr
      simpa using hl
  have bindok : ∀ {α β : Type} {x : Except Err α} {k : α → Except Err β} {b : β},
      (x >>= k) = .ok b → ∃ a, k a = .ok b := by
    intro α β x k b hb
    cases x with
    | error er => cases hb
    | ok a => exact ⟨a, hb⟩
  have key : ∀ f, (∀ c cross st ts r, loop e ty f c cross st ts = .ok r → lastPair r.1 = false) ∧
      (∀ c cross st v q ts r, word e ty f c cross st v q ts = .ok r → lastPair r.1 = false) := by
    intro f
    induction f with
    | zero =>
      constructor
      · intro _ _ _ _ _ h
        rw [loop] at h
        cases h
      · intro _ _ _ _ _ _ _ h
        rw [word] at h
        cases h
    | succ f ih =>
      constructor
      · intro c cross st ts r h
        unfold loop at h
        split at h
        · split at h
          · split at h
            · obtain ⟨_, h⟩ := bindok h; exact ih.1 _ _ _ _ _ h
            · obtain ⟨_, h⟩ := bindok h; exact ih.1 _ _ _ _ _ h
            · cases h
          · split at h
            · split at h
              · split at h
                · exact ih.2 _ _ _ _ _ _ _ h
                · cases h
              · exact ih.1 _ _ _ _ _ h
            · exact ih.2 _ _ _ _ _ _ _ h
        · split at h
          · split at h
            · obtain ⟨_, h⟩ := bindok h; exact ih.1 _ _ _ _ _ h
            · exact ih.2 _ _ _ _ _ _ _ h
          · split at h
            · obtain ⟨_, h⟩ := bindok h; exact ih.1 _ _ _ _ _ h
            · split at h
              · exact ih.1 _ _ _ _ _ h
              · dsimp only at h
                split at h
                · exact ih.1 _ _ _ _ _ h
                · obtain ⟨_, h⟩ := bindok h; exact ih.1 _ _ _ _ _ h
          · obtain ⟨_, h⟩ := bindok h; exact ih.1 _ _ _ _ _ h
          · obtain ⟨_, h⟩ := bindok h; exact ih.1 _ _ _ _ _ h
          · split at h
            · split at h
              · obtain ⟨_, h⟩ := bindok h; exact hfin _ _ _ _ h
              · cases h
            · exact hfin _ _ _ _ h
      · intro c cross st v q ts r h
        rw [word] at h
        obtain ⟨_, h⟩ := bindok h
        dsimp only at h
        split at h
        · obtain ⟨_, h⟩ := bindok h
          obtain ⟨_, h⟩ := bindok h
          exact ih.1 _ _ _ _ _ h
        · obtain ⟨_, h⟩ := bindok h
          exact ih.1 _ _ _ _ _ h
  exact (key _).1 _ _ _ _ _ h

/-! ## Concrete cases -/

/-- A toy environment for the examples: POSIX paths without normalization,
alphabetic projects. -/
def toy : Env where
  validProj s := s.all (·.isAlpha)
  mkDir s := some s
  exactDir s := some s
  join a b := some (a ++ b)
  absolute s := s.head? = some '/'

/-- Typed concatenation of a directory (type 0) and a string. -/
def toyTyped : Typed where
  cat _ n v := some (0, { n with dir := n.dir ++ (v.names.map (·.1.dir)).flatten })
  word _ n := some (n.dir ++ n.value)

def w (s : String) (sep : Bool := true) : Tok := .word sep s.toList false
def nm (d t v : String) : Name := ⟨none, d.toList, t.toList, v.toList⟩
def x (es : List Elem) (sep : Bool := true) : Tok := .exp sep (valOf (some es))

/-- `p%d/{hxx cxx}{a b} x@{y $z}` with `z` being `d/lib{u v}`: meets the
hypothesis of `parse_names_partial`. -/
example :
    let s : Seq :=
      .cons (.group (some ⟨some "p".toList, some "d".toList, none,
          [.name "p".toList, .lit "%d/".toList true]⟩)
        (.more (.one (lits ["hxx".toList, "cxx".toList])) (lits ["a".toList, "b".toList])))
      (.cons (.pair (lit "x".toList) (.group none (.one (.cons (lit "y".toList)
        (.cons (.exp (some [.single (nm "d/" "lib" "u"), .single (nm "d/" "lib" "v")])) .nil)))))
      .nil)
    s.wf toy true ∧
    s.den toy Ctx.none = some
      [.single ⟨some "p".toList, "d/".toList, "hxx".toList, "a".toList⟩,
       .single ⟨some "p".toList, "d/".toList, "hxx".toList, "b".toList⟩,
       .single ⟨some "p".toList, "d/".toList, "cxx".toList, "a".toList⟩,
       .single ⟨some "p".toList, "d/".toList, "cxx".toList, "b".toList⟩,
       .pair (nm "" "" "x") (nm "" "" "y"),
       .pair (nm "" "" "x") (nm "d/" "lib" "u"),
       .pair (nm "" "" "x") (nm "d/" "lib" "v")] := by
  refine ⟨?_, by decide +kernel⟩
  have hb : ∀ s ∈ ["hxx".toList, "cxx".toList, "a".toList, "b".toList, "x".toList, "y".toList],
      bare s := by
    intro s hs
    simp only [List.mem_cons, List.not_mem_nil, or_false] at hs
    rcases hs with rfl | rfl | rfl | rfl | rfl | rfl <;> exact ⟨by decide, by decide, by decide⟩
  have hl : ∀ s, bare s → ∀ cross, (lit s).wf toy cross := by
    intro s hs cross
    have := lits_wf toy cross [s] (fun s h => by
      cases h with
      | head => exact hs
      | tail _ h => cases h)
    unfold lits Seq.wf at this
    exact this.2.1
  simp only [Seq.wf, Item.wf, Groups.wf]
  refine ⟨rfl, ⟨⟨Or.inr (by decide), fun _ h => ?_, fun d h => ?_, fun t h => ?_, by simp,
    fun q hq => ?_, by decide⟩, trivial, lits_wf _ _ _ fun s hs => hb s ?_, ?_,
    lits_wf _ _ _ fun s hs => hb s ?_⟩, rfl, ⟨rfl, rfl, hl _ (hb _ (by simp)) _, rfl,
    hl _ (hb _ (by simp)) _, rfl, trivial, trivial⟩, trivial⟩
  · contradiction
  · cases h; decide
  · cases h
  · simp only [List.mem_cons, List.not_mem_nil, or_false] at hq
    rcases hq with rfl | rfl <;> trivial
  · simp only [List.mem_cons, List.not_mem_nil, or_false] at hs
    rcases hs with rfl | rfl <;> simp
  · unfold Groups.simple; exact lits_simple _
  · simp only [List.mem_cons, List.not_mem_nil, or_false] at hs
    rcases hs with rfl | rfl <;> simp

/-- An absolute directory inside another one stands for nothing, and the
parser fails: `d/{/e/f}` with an expansion. -/
example : (parse toy toyTyped [w "d/", .lc false, x [.single (nm "/e/" "" "f")], .rc, .eos]) =
    .error .nestedAbsolute := by rfl

/-! ## Beyond: what the code does with the rest -/

/-- `a@b@c` is accepted, although neither half of a pair can be a pair. -/
theorem pair_chain :
    parse toy toyTyped [w "a", .at false, w "b" false, .at false, w "c" false, .eos] =
      .ok ([(nm "" "" "a", true), (nm "" "" "b", true), (nm "" "" "c", false)], [.eos]) := by
  rfl

/-- `a@$x b` with an empty `x`: the pair takes the next name. -/
theorem empty_rhs_takes_next :
    parse toy toyTyped [w "a", .at false, x [] false, w "b", .eos] =
      .ok ([(nm "" "" "a", true), (nm "" "" "b", false)], [.eos]) := by
  rfl

/-- `y $x@b` with an empty `x`: the pair takes the previous name. -/
theorem empty_lhs_takes_previous :
    parse toy toyTyped [w "y", x [], .at false, w "b" false, .eos] =
      .ok ([(nm "" "" "y", true), (nm "" "" "b", false)], [.eos]) := by
  rfl

/-- `a@$x` with `b c` in `x`: only the first one, in contrast to
`a@{$x}`. -/
theorem list_rhs_not_distributed :
    parse toy toyTyped [w "a", .at false,
        x [.single (nm "" "" "b"), .single (nm "" "" "c")] false, .eos] =
      .ok ([(nm "" "" "a", true), (nm "" "" "b", false), (nm "" "" "c", false)], [.eos]) ∧
    parse toy toyTyped [w "a", .at false, .lc false,
        x [.single (nm "" "" "b"), .single (nm "" "" "c")] false, .rc, .eos] =
      .ok ([(nm "" "" "a", true), (nm "" "" "b", false), (nm "" "" "a", true),
        (nm "" "" "c", false)], [.eos]) := by
  constructor <;> rfl

/-- `$d$d@b` with a directory of type `dir_path`: the result of a typed
concatenation is not taken as the left hand side of the pair, the empty
name is. -/
theorem typed_lhs_lost :
    parse toy toyTyped [.exp true ⟨false, some 0, [(nm "d/" "" "", false)], false⟩,
        .exp false ⟨false, some 0, [(nm "e/" "" "", false)], false⟩, .at false, w "b" false,
        .eos] =
      .ok ([(nm "d/e/" "" "", false), (nm "" "" "", true), (nm "" "" "b", false)], [.eos]) := by
  rfl

/-- `p%{lib{u}}` is an error, in contrast to `p%{u}` and to `p%lib{u}`: the
empty type after `p%` counts as a type. -/
theorem project_group_rejects_types :
    parse toy toyTyped [w "p%", .lc false, w "lib" false, .lc false, w "u" false, .rc, .rc,
      .eos] = .error .nestedType ∧
    parse toy toyTyped [w "p%", .lc false, w "u" false, .rc, .eos] =
      .ok ([(⟨some "p".toList, [], [], "u".toList⟩, false)], [.eos]) := by
  constructor <;> rfl

/-- `a@@b` is an error. -/
theorem double_pair_rejected :
    parse toy toyTyped [w "a", .at false, .at false, w "b" false, .eos] = .error .doublePair := by
  rfl

/-- `t{$d$d}` with a directory of type `dir_path`: the result of a typed
concatenation is qualified like any other name in the group. -/
theorem typed_concat_qualified :
    parse toy toyTyped [w "t", .lc false, .exp false ⟨false, some 0, [(nm "d/" "" "", false)], false⟩,
        .exp false ⟨false, some 0, [(nm "e/" "" "", false)], false⟩, .rc, .eos] =
      .ok ([(nm "d/e/" "t" "", false)], [.eos]) := by
  rfl

/-- `{a@b}{u}`: the pair is lost. -/
theorem cross_loses_pair :
    parse toy toyTyped [.lc true, w "a" false, .at false, w "b" false, .rc, .lc false,
        w "u" false, .rc, .eos] =
      .ok ([(nm "" "a" "u", false), (nm "" "b" "u", false)], [.eos]) := by
  rfl

/-- `{a{u}{v}}`: not a cross inside of a group. -/
theorem nested_cross_not_crossed :
    parse toy toyTyped [.lc true, w "a" false, .lc false, w "u" false, .rc, .lc false,
        w "v" false, .rc, .rc, .eos] =
      .ok ([(nm "" "a" "u", false), (nm "" "" "v", false)], [.eos]) := by
  rfl

/-- `"1%c"{u}` with `1` not being a valid project: not an error as without
the quotes, what precedes the `%` is the directory. -/
theorem quoted_percent_is_separator :
    parse toy toyTyped [.word true "1%c".toList true, .lc false, w "u" false, .rc, .eos] =
      .ok ([(nm "1%" "c" "u", false)], [.eos]) ∧
    parse toy toyTyped [.word true "1%c".toList false, .lc false, w "u" false, .rc, .eos] =
      .error .invalidProject := by
  constructor <;> rfl

end Verif.NameGroup
