import Verif.Function.Lemmas

/-!
# Function calls: properties (C35)
-/

namespace Verif.Function

variable {α : Type}

/-! ## Overload resolution -/

theorem viable_unique {f : Overload} {args : List (Arg α)} {r q : Nat}
    (h1 : Viable f args r) (h2 : Viable f args q) : r = q := by
  rw [← rankOf_iff] at h1 h2
  rw [h1] at h2
  exact Option.some.inj h2

/-- The loop leaves exactly one overload if and only if it is strictly better than
all the others. -/
theorem single_iff (fs : List Overload) (args : List (Arg α)) (f : Overload) :
    (fs.foldl (consider args) ⟨none, []⟩).ovls = [f] ↔ BestOverload fs args f := by
  have hg := fold_good fs args
  generalize fs.foldl (consider args) ⟨none, []⟩ = c at *
  unfold Good at hg
  constructor
  · intro h
    cases hc : c.rank with
    | none => rw [hc] at hg; rw [hg.2] at h; cases h
    | some m =>
      rw [hc] at hg
      obtain ⟨_, h2, h3⟩ := hg
      rw [h3] at h
      have hf : f ∈ fs.filter (fun f => rankOf f args == some m) := by rw [h]; simp
      simp at hf
      obtain ⟨a, b, e⟩ := List.append_of_mem hf.1
      rw [e] at h
      have hfm : (rankOf f args == some m) = true := by simpa using hf.2
      rw [List.filter_append, List.filter_cons_of_pos (p := fun f => rankOf f args == some m) hfm] at h
      have hl := congrArg List.length h
      simp only [List.length_append, List.length_cons, List.length_nil] at hl
      have ha : a.filter (fun f => rankOf f args == some m) = [] :=
        List.eq_nil_of_length_eq_zero (by omega)
      have hb : b.filter (fun f => rankOf f args == some m) = [] :=
        List.eq_nil_of_length_eq_zero (by omega)
      refine ⟨a, b, m, e, (rankOf_iff _ _ _).mp hf.2, ?_⟩
      intro g hg q hq
      rw [← rankOf_iff] at hq
      have h4 := h2 g (by rw [e]; simp at hg ⊢; rcases hg with hg | hg <;> simp [hg]) q hq
      have h5 : q ≠ m := by
        rintro rfl
        simp at hg
        rcases hg with hg | hg
        · have := (List.filter_eq_nil_iff.mp ha) g hg
          simp [hq] at this
        · have := (List.filter_eq_nil_iff.mp hb) g hg
          simp [hq] at this
      omega
  · rintro ⟨a, b, r, e, hv, hlt⟩
    rw [← rankOf_iff] at hv
    cases hc : c.rank with
    | none => rw [hc] at hg; rw [hg.1 f (by rw [e]; simp)] at hv; cases hv
    | some m =>
      rw [hc] at hg
      obtain ⟨⟨g, hgm, hgr⟩, h2, h3⟩ := hg
      have hm : m = r := by
        have h4 := h2 f (by rw [e]; simp) r hv
        rw [e] at hgm
        simp at hgm
        rcases hgm with h5 | rfl | h5
        · have := hlt g (by simp [h5]) m ((rankOf_iff _ _ _).mp hgr); omega
        · rw [hv] at hgr; exact (Option.some.inj hgr).symm
        · have := hlt g (by simp [h5]) m ((rankOf_iff _ _ _).mp hgr); omega
      subst hm
      rw [h3, e, List.filter_append, List.filter_cons_of_pos (by simp [hv])]
      have hz : ∀ l : List Overload, (∀ g ∈ l, g ∈ a ++ b) →
          l.filter (fun f => rankOf f args == some m) = [] := by
        intro l hl
        rw [List.filter_eq_nil_iff]
        intro g hg hgr
        have := hlt g (hl g hg) m ((rankOf_iff _ _ _).mp (by simpa using hgr))
        omega
      rw [hz a (by intro g hg; simp [hg]), hz b (by intro g hg; simp [hg])]
      rfl

/-- A call that goes through calls the overload that is strictly better than all
the others and passes every argument either as is or, if the parameter is
untyped, reversed to untyped. -/
theorem called_best {unt : VType → α → α} {fs : List Overload} {args as : List (Arg α)}
    {f : Overload} (h : call unt fs args = .called f as) :
    BestOverload fs args f ∧ ∀ i : Nat, as[i]? = args[i]?.map (pass unt f.types[i]?) := by
  have hs := single_iff fs args f
  have hg := fold_good fs args
  unfold call finish at h
  generalize fs.foldl (consider args) ⟨none, []⟩ = c at *
  split at h
  · rename_i g hc
    split at h
    · split at h
      · cases h
        refine ⟨hs.mp hc, ?_⟩
        intro i
        rw [untypifyArgs_spec]
      · cases h
    · rename_i hr
      cases h
      have hb := hs.mp hc
      refine ⟨hb, ?_⟩
      intro i
      unfold Good at hg
      cases hcr : c.rank with
      | none => rw [hcr] at hg; rw [hg.2] at hc; cases hc
      | some m =>
        rw [hcr] at hg hr
        have hf : f ∈ c.ovls := by rw [hc]; simp
        rw [hg.2.2] at hf
        simp at hf
        obtain ⟨_, _, rs, hcv, hle, hor⟩ := (rankOf_iff _ _ _).mp hf.2
        refine pass_id hcv ?_ unt i
        -- the rank is not 2 and a rank greater than 2 does not exist
        have hall := convs_le hcv
        have hm2 : m ≤ 2 := by
          rcases hor with h | h
          · omega
          · exact hall m h
        have : m ≠ 2 := fun e => hr (by rw [e])
        intro r hr'
        have := hle r hr'
        omega
  · cases h
  · cases h

/-- The call is made if there is such an overload, unless it takes more arguments
than it has typed parameters and one of them needs to be reversed to untyped. -/
theorem best_called (unt : VType → α → α) {fs : List Overload} {args : List (Arg α)}
    {f : Overload} (h : BestOverload fs args f)
    (ha : args.length ≤ f.types.length ∨ ¬ Viable f args 2) :
    ∃ as, call unt fs args = .called f as := by
  have hc := (single_iff fs args f).mpr h
  have hg := fold_good fs args
  unfold call finish
  generalize fs.foldl (consider args) ⟨none, []⟩ = c at *
  rw [hc]
  simp only
  split
  · rename_i hr
    split
    · exact ⟨_, rfl⟩
    · rename_i hl
      exfalso
      unfold Good at hg
      rw [hr] at hg
      have hf : f ∈ c.ovls := by rw [hc]; simp
      rw [hg.2.2] at hf
      simp at hf
      rcases ha with ha | ha
      · exact hl ha
      · exact ha ((rankOf_iff _ _ _).mp hf.2)
  · exact ⟨_, rfl⟩

/-- A call is unmatched if and only if no overload can be called. -/
theorem unmatched_iff (unt : VType → α → α) (fs : List Overload) (args : List (Arg α)) :
    call unt fs args = .unmatched ↔ ∀ f ∈ fs, ∀ r, ¬ Viable f args r := by
  have hg := fold_good fs args
  unfold call finish
  generalize fs.foldl (consider args) ⟨none, []⟩ = c at *
  unfold Good at hg
  cases hr : c.rank with
  | none =>
    rw [hr] at hg
    rw [hg.2]
    simp only [true_iff]
    intro f hf r hv
    rw [← rankOf_iff, hg.1 f hf] at hv
    cases hv
  | some m =>
    rw [hr] at hg
    obtain ⟨⟨f, hf, hfr⟩, _, h3⟩ := hg
    have hne : c.ovls ≠ [] := by
      rw [h3]
      intro e
      have := (List.filter_eq_nil_iff.mp e) f hf
      simp [hfr] at this
    constructor
    · intro h
      split at h
      · split at h
        · split at h <;> cases h
        · cases h
      · rename_i e; exact absurd e hne
      · cases h
    · intro h
      exact absurd ((rankOf_iff _ _ _).mp hfr) (h f hf m)

/-- A call is ambiguous if and only if two overloads are as good as each other and
no worse than the others. -/
theorem ambiguous_iff (unt : VType → α → α) (fs : List Overload) (args : List (Arg α)) :
    call unt fs args = .ambiguous ↔ Tie fs args := by
  have hg := fold_good fs args
  unfold call
  generalize fs.foldl (consider args) ⟨none, []⟩ = c at *
  unfold Good at hg
  have hcall : finish unt args c = .ambiguous ↔ 2 ≤ c.ovls.length := by
    unfold finish
    match hc : c.ovls with
    | [] => simp
    | [f] => simp; split <;> (try split) <;> simp
    | _ :: _ :: _ => simp
  rw [hcall]
  cases hr : c.rank with
  | none =>
    rw [hr] at hg
    rw [hg.2]
    refine ⟨fun h => by simp at h, ?_⟩
    rintro ⟨a, f, b, g, d, r, e, hv, _⟩
    rw [← rankOf_iff, hg.1 f (by rw [e]; simp)] at hv
    cases hv
  | some m =>
    rw [hr] at hg
    obtain ⟨⟨x, hx, hxr⟩, h2, h3⟩ := hg
    rw [h3]
    constructor
    · intro hl
      match hfl : fs.filter (fun f => rankOf f args == some m), hl with
      | f :: g :: rest, _ =>
        rw [List.filter_eq_cons_iff] at hfl
        obtain ⟨a, t, e, _, hf, hfl⟩ := hfl
        rw [List.filter_eq_cons_iff] at hfl
        obtain ⟨b, d, e2, _, hg2, _⟩ := hfl
        refine ⟨a, f, b, g, d, m, by rw [e, e2]; simp, ?_, ?_, ?_⟩
        · exact (rankOf_iff _ _ _).mp (by simpa using hf)
        · exact (rankOf_iff _ _ _).mp (by simpa using hg2)
        · intro h hh q hq
          exact h2 h hh q ((rankOf_iff _ _ _).mpr hq)
    · rintro ⟨a, f, b, g, d, r, e, hf, hg2, hle⟩
      rw [← rankOf_iff] at hf hg2
      have hrm : r = m := by
        have h4 := h2 f (by rw [e]; simp) r hf
        have h5 := hle x hx m ((rankOf_iff _ _ _).mp hxr)
        omega
      subst hrm
      rw [e, List.append_assoc, List.filter_append, List.cons_append,
        List.filter_cons_of_pos (by simp [hf]), List.filter_append,
        List.filter_cons_of_pos (by simp [hg2])]
      simp
      omega

/-- The outcome does not depend on the order in which the overloads have been
registered. -/
theorem order_irrelevant (unt : VType → α → α) {fs gs : List Overload} (h : fs.Perm gs)
    (args : List (Arg α)) : call unt fs args = call unt gs args := by
  have hf := fold_good fs args
  have hg := fold_good gs args
  unfold call finish
  generalize fs.foldl (consider args) ⟨none, []⟩ = c at *
  generalize gs.foldl (consider args) ⟨none, []⟩ = d at *
  unfold Good at hf hg
  have key : c.rank = d.rank ∧ c.ovls.Perm d.ovls := by
    cases hc : c.rank with
    | none =>
      rw [hc] at hf
      cases hd : d.rank with
      | none => rw [hd] at hg; rw [hf.2, hg.2]; exact ⟨rfl, .nil⟩
      | some m =>
        rw [hd] at hg
        obtain ⟨⟨x, hx, e⟩, _⟩ := hg
        rw [hf.1 x (h.mem_iff.mpr hx)] at e; cases e
    | some m =>
      rw [hc] at hf
      obtain ⟨⟨x, hx, ex⟩, h2, h3⟩ := hf
      cases hd : d.rank with
      | none => rw [hd] at hg; rw [hg.1 x (h.mem_iff.mp hx)] at ex; cases ex
      | some m' =>
        rw [hd] at hg
        obtain ⟨⟨y, hy, ey⟩, h2', h3'⟩ := hg
        have h4 := h2 y (h.mem_iff.mpr hy) _ ey
        have h5 := h2' x (h.mem_iff.mp hx) _ ex
        have : m = m' := by omega
        subst this
        refine ⟨rfl, ?_⟩
        rw [h3, h3']
        exact h.filter _
  obtain ⟨hk1, hk2⟩ := key
  rw [hk1]
  generalize hco : c.ovls = co at hk2
  generalize hdo : d.ovls = do' at hk2
  match co, do', hk2 with
  | [], do', hp => rw [List.nil_perm.mp hp]
  | [f], do', hp => rw [List.singleton_perm.mp hp]
  | f :: g :: l, do', hp =>
    have hl := hp.length_eq
    match do', hl with
    | x :: y :: l', _ => rfl

/-- Every argument is passed as a value that is acceptable without reversal to
untyped. -/
theorem passed_types {unt : VType → α → α} {fs : List Overload} {args as : List (Arg α)}
    {f : Overload} (h : call unt fs args = .called f as) {i : Nat} {a : Arg α} {p : Param}
    (ha : as[i]? = some a) (hp : f.types[i]? = some p) :
    Conv a.type p 0 ∨ Conv a.type p 1 := by
  obtain ⟨⟨_, _, r, _, ⟨_, _, rs, hc, _⟩, _⟩, hpass⟩ := called_best h
  have hi := hpass i
  rw [ha, hp] at hi
  cases hb : args[i]? with
  | none => rw [hb] at hi; cases hi
  | some b =>
    rw [hb] at hi
    simp only [Option.map_some, Option.some.injEq] at hi
    obtain ⟨q, _, hconv⟩ := convs_get hc hb hp
    generalize hbt : b.type = bt at hconv
    unfold pass at hi
    rw [hbt] at hi
    cases hconv with
    | any => exact .inl .any
    | exact =>
      left
      have : a = b := by cases bt <;> simpa using hi
      rw [this, hbt]
      exact .exact
    | base hd =>
      right
      have : a = b := by simpa using hi
      rw [this, hbt]
      exact .base hd
    | untype =>
      left
      simp at hi
      rw [hi]
      exact .exact

/-! Examples: `int` and a type derived from it; an exact match is preferred to one
via the base, which is preferred to the reversal; two of the same rank are
ambiguous. -/

/-- A type. -/
abbrev tInt : VType := .root 0
/-- A type derived from it. -/
abbrev tDer : VType := .derived 1 tInt
/-- An overload with these parameters. -/
abbrev ov (ts : List Param) (i : Nat) : Overload := ⟨ts.length, some ts.length, ts, i⟩
/-- Data of an untypified argument in the examples. -/
abbrev ex (_ : VType) (n : Nat) : Nat := n + 100

example : call ex [ov [some none] 0, ov [some (some tInt)] 1, ov [some (some tDer)] 2]
    [⟨some tDer, 7⟩] = .called (ov [some (some tDer)] 2) [⟨some tDer, 7⟩] := rfl
example : call ex [ov [some none] 0, ov [some (some tInt)] 1]
    [⟨some tDer, 7⟩] = .called (ov [some (some tInt)] 1) [⟨some tDer, 7⟩] := rfl
example : call ex [ov [some none] 0] [⟨some tDer, 7⟩] =
    .called (ov [some none] 0) [⟨none, 107⟩] := rfl
example : call ex [ov [some (some tInt), none] 0, ov [some (some tInt), some none] 1]
    [⟨some tInt, 7⟩, ⟨none, 8⟩] = .ambiguous := rfl
example : call ex [ov [some (some tDer)] 0] [⟨some tInt, 7⟩] = .unmatched := rfl
example : BestOverload [ov [some none] 0, ov [some (some tInt)] 1] [(⟨some tDer, 7⟩ : Arg Nat)]
    (ov [some (some tInt)] 1) :=
  (single_iff _ _ _).mp rfl

/-- A call that resolves can still fail an assertion: a function that takes any
number of arguments, the first of which is untyped. -/
theorem variadic_assertion :
    ∃ (f : Overload) (args : List (Arg Nat)),
      BestOverload [f] args f ∧ call ex [f] args = .assertion :=
  ⟨⟨1, none, [some none], 0⟩, [⟨some tInt, 1⟩, ⟨some tInt, 2⟩],
    (single_iff _ _ _).mp rfl, rfl⟩

/-! ## Names -/

/-- After any registrations, the overloads considered for a name are those
registered under this name, alone or in their family, in the order of
registration. -/
theorem found {rs : List Reg} {m : Map} (h : registerAll [] rs = some m) (n : List Char) :
    (find m n).getD [] =
      (rs.filter (fun r => decide (n ∈ names r.qual r.name))).map (·.ovl) ∧
    (find m n = none ↔ ∀ r ∈ rs, n ∉ names r.qual r.name) := by
  have hr := (registerAll_spec (m := []) .nil h).2 n
  have h0 : find [] n = none := rfl
  rw [h0] at hr
  refine ⟨by simpa [under] using hr.1, ?_⟩
  have h2 := hr.2
  simp [under] at h2
  constructor
  · intro e r hrm hn
    rw [e] at h2
    simp at h2
    exact h2 r hrm hn
  · intro hno
    cases e : find m n with
    | none => rfl
    | some _ =>
      rw [e] at h2
      simp at h2
      obtain ⟨r, h3, h4⟩ := h2
      exact absurd h4 (hno r h3)

/-- The keys of the map are the names under which something is registered. -/
theorem mem_keys {rs : List Reg} {m : Map} (h : registerAll [] rs = some m) (n : List Char) :
    (∃ x ∈ m, x.1 = n) ↔ ∃ r ∈ rs, n ∈ names r.qual r.name := by
  have hf := (found h n).2
  have : find m n = none ↔ ¬ ∃ x ∈ m, x.1 = n := by
    simp only [find, Option.map_eq_none_iff, List.find?_eq_none, beq_iff_eq, not_exists, not_and]
  rw [this] at hf
  constructor
  · intro h1
    apply Classical.byContradiction
    intro h2
    exact (hf.mpr (fun r hr hn => h2 ⟨r, hr, hn⟩)) h1
  · rintro ⟨r, hr, hn⟩
    apply Classical.byContradiction
    intro h2
    exact hf.mp h2 r hr hn

/-- Whether a function is defined. -/
theorem defined_function {rs : List Reg} {m : Map} (h : registerAll [] rs = some m)
    {n : List Char} (hn : n ≠ []) (hd : n.getLast? ≠ some '.') :
    defined m n = some true ↔ ∃ r ∈ rs, n ∈ names r.qual r.name := by
  rw [← mem_keys h]
  unfold defined
  rw [if_neg (by simpa using hn), if_pos (by simpa using hd)]
  simp

/-- Whether a family is defined: whether there is a function with a name that
starts with the family's name and a dot. -/
theorem defined_family {rs : List Reg} {m : Map} (h : registerAll [] rs = some m)
    {q : List Char} (hq : q ≠ []) :
    defined m (q ++ ['.']) = some true ↔
      ∃ r ∈ rs, ∃ n, n ≠ [] ∧ q ++ '.' :: n ∈ names r.qual r.name := by
  have hsort := (registerAll_spec (m := []) .nil h).1
  have hlen : ¬ (q ++ ['.']).length ≤ 1 := by
    cases q with
    | nil => exact absurd rfl hq
    | cons c q => simp
  unfold defined
  rw [if_neg (by simp), if_neg (by simp), if_neg hlen]
  have key : (∃ r ∈ rs, ∃ n, n ≠ [] ∧ q ++ '.' :: n ∈ names r.qual r.name) ↔
      ∃ x ∈ m, (q ++ ['.']) <+: x.1 ∧ q ++ ['.'] ≠ x.1 := by
    constructor
    · rintro ⟨r, hr, n, hn, hm⟩
      obtain ⟨x, hx, e⟩ := (mem_keys h _).mpr ⟨r, hr, hm⟩
      refine ⟨x, hx, ⟨n, by rw [e]; simp⟩, ?_⟩
      rw [e]
      intro e2
      have := congrArg List.length e2
      cases n with
      | nil => exact hn rfl
      | cons _ _ => simp at this
    · rintro ⟨x, hx, ⟨n, e⟩, hne⟩
      obtain ⟨r, hr, hm⟩ := (mem_keys h x.1).mp ⟨x, hx, rfl⟩
      refine ⟨r, hr, n, ?_, ?_⟩
      · rintro rfl; exact hne (by simpa using e)
      · rw [← e] at hm; simpa using hm
  rw [key]
  cases hf : m.find? (fun x => slt (q ++ ['.']) x.1) with
  | none =>
    simp only [Option.some.injEq, Bool.false_eq_true, false_iff]
    rintro ⟨x, hx, hp, hne⟩
    have := List.find?_eq_none.mp hf x hx
    exact this (slt_of_prefix hp hne)
  | some x =>
    have hxm := List.mem_of_find?_eq_some hf
    have hxs := List.find?_some hf
    simp only [Option.some.injEq, beq_iff_eq]
    constructor
    · intro e
      refine ⟨x, hxm, ?_, ?_⟩
      · rw [← e]; exact List.take_prefix _ _
      · intro e2; rw [← e2, slt_irrefl] at hxs; cases hxs
    · rintro ⟨y, hy, hp, hne⟩
      have hys := slt_of_prefix hp hne
      have hxy : x.1 = y.1 ∨ slt x.1 y.1 = true := by
        rw [List.find?_eq_some_iff_append] at hf
        obtain ⟨_, a, b, e, hno⟩ := hf
        rw [e] at hy hsort
        simp at hy
        rcases hy with hy | rfl | hy
        · have := hno y hy
          simp [hys] at this
        · exact .inl rfl
        · right
          unfold Sorted at hsort
          rw [List.pairwise_append, List.pairwise_cons] at hsort
          exact hsort.2.1.1 y hy
      have := prefix_between hxs hxy hp
      exact (List.prefix_iff_eq_take.mp this).symm

/-- Two families with a function of the same name, a qualified-only function and a
function without a family. -/
example :
    ∃ m, registerAll [] [⟨"string".toList, "size".toList, ov [] 0⟩,
      ⟨"path".toList, "size".toList, ov [none] 1⟩,
      ⟨"path".toList, ".join".toList, ov [] 2⟩, ⟨[], "type".toList, ov [] 3⟩] = some m ∧
    find m "size".toList = some [ov [] 0, ov [none] 1] ∧
    find m "path.size".toList = some [ov [none] 1] ∧
    find m "join".toList = none ∧ find m "path.join".toList = some [ov [] 2] ∧
    find m "type".toList = some [ov [] 3] ∧
    defined m "path.".toList = some true ∧ defined m "pat.".toList = some false ∧
    defined m "size.".toList = some false :=
  ⟨_, rfl, rfl, rfl, rfl, rfl, rfl, rfl, rfl, rfl⟩

end Verif.Function
