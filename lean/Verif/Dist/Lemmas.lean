import Verif.Dist.Model

/-! # Distribution: lemmas -/

namespace Verif.Dist

theorem collect_iff {p : Proj} {f : File} : collect p f = true ↔ Chosen p f := by
  unfold collect Chosen Marked
  by_cases h : p.src <+: f.dir
  · have h' : p.src.isPrefixOf f.dir = true := List.isPrefixOf_iff_prefix.2 h
    simp [h, h']
  · have h' : p.src.isPrefixOf f.dir = false := by
      rw [Bool.eq_false_iff]; intro q; exact h (List.isPrefixOf_iff_prefix.1 q)
    by_cases g : p.out <+: f.dir
    · have g' : p.out.isPrefixOf f.dir = true := List.isPrefixOf_iff_prefix.2 g
      cases hd : f.dist <;> simp [h, h', g, g']
    · have g' : p.out.isPrefixOf f.dir = false := by
        rw [Bool.eq_false_iff]; intro q; exact g (List.isPrefixOf_iff_prefix.1 q)
      simp [h, h', g, g']

/-- A target is collected. -/
def Taken (p : Proj) : Tgt → Prop
  | .file f m => m = false ∧ Chosen p f
  | .group v _ => Marked v
  | .other => False

theorem mem_first {p : Proj} {t : Tgt} : ∀ {ts : List Tgt}, t ∈ first p ts ↔ t ∈ ts ∧ Taken p t := by
  intro ts
  fun_induction first p ts with
  | case1 => simp
  | case2 ms ts x hx ih =>
    simp only [List.mem_cons, ih]
    constructor
    · rintro (rfl | ⟨h, k⟩)
      · exact ⟨.inl rfl, x, rfl, by simpa using hx⟩
      · exact ⟨.inr h, k⟩
    · rintro ⟨rfl | h, k⟩
      · exact .inl rfl
      · exact .inr ⟨h, k⟩
  | case3 ms ts x hx ih =>
    simp only [List.mem_cons, ih]
    constructor
    · rintro ⟨h, k⟩; exact ⟨.inr h, k⟩
    · rintro ⟨rfl | h, k⟩
      · obtain ⟨y, e, ne⟩ := k
        cases e
        exact absurd (by simpa using ne) hx
      · exact ⟨h, k⟩
  | case4 ms ts ih =>
    simp only [List.mem_cons, ih]
    constructor
    · rintro ⟨h, k⟩; exact ⟨.inr h, k⟩
    · rintro ⟨rfl | h, k⟩
      · obtain ⟨y, e, ne⟩ := k; cases e
      · exact ⟨h, k⟩
  | case5 ts ih =>
    simp only [List.mem_cons, ih]
    constructor
    · rintro ⟨h, k⟩; exact ⟨.inr h, k⟩
    · rintro ⟨rfl | h, k⟩
      · exact k.elim
      · exact ⟨h, k⟩
  | case6 f ts ih =>
    simp only [List.mem_cons, ih]
    constructor
    · rintro ⟨h, k⟩; exact ⟨.inr h, k⟩
    · rintro ⟨rfl | h, k⟩
      · exact absurd k.1 (by simp)
      · exact ⟨h, k⟩
  | case7 f m ts hm hc ih =>
    simp only [List.mem_cons, ih]
    constructor
    · rintro (rfl | ⟨h, k⟩)
      · exact ⟨.inl rfl, by simpa using hm, collect_iff.1 hc⟩
      · exact ⟨.inr h, k⟩
    · rintro ⟨rfl | h, k⟩
      · exact .inl rfl
      · exact .inr ⟨h, k⟩
  | case8 f m ts hm hc ih =>
    simp only [List.mem_cons, ih]
    constructor
    · rintro ⟨h, k⟩; exact ⟨.inr h, k⟩
    · rintro ⟨rfl | h, k⟩
      · exact absurd (collect_iff.2 k.2) hc
      · exact ⟨h, k⟩

theorem mem_second {p : Proj} {f : File} : ∀ {ts : List Tgt} {fs : List File}, second p ts = .ok fs →
    (f ∈ fs ↔ (∃ m, .file f m ∈ ts) ∨
      ∃ v ms, .group v (some ms) ∈ ts ∧ f ∈ ms ∧ Chosen p f) := by
  intro ts
  fun_induction second p ts with
  | case1 => intro fs h; cases h; simp
  | case2 g m ts x hx ih => intro fs h; cases h
  | case3 g m ts gs hx ih =>
    intro fs h
    cases h
    simp only [List.mem_cons, ih hx]
    constructor
    · rintro (rfl | ⟨m', h⟩ | ⟨v, ms, h, k⟩)
      · exact .inl ⟨m, .inl rfl⟩
      · exact .inl ⟨m', .inr h⟩
      · exact .inr ⟨v, ms, .inr h, k⟩
    · rintro (⟨m', e | h⟩ | ⟨v, ms, e | h, k⟩)
      · cases e; exact .inl rfl
      · exact .inr (.inl ⟨m', h⟩)
      · cases e
      · exact .inr (.inr ⟨v, ms, h, k⟩)
  | case4 => intro fs h; cases h
  | case5 v ms ts x hx ih => intro fs h; cases h
  | case6 v ms ts gs hx ih =>
    intro fs h
    cases h
    simp only [List.mem_append, List.mem_filter, List.mem_cons, ih hx, collect_iff]
    constructor
    · rintro (⟨h, k⟩ | ⟨m', h⟩ | ⟨v', ms', h, k⟩)
      · exact .inr ⟨v, ms, .inl rfl, h, k⟩
      · exact .inl ⟨m', .inr h⟩
      · exact .inr ⟨v', ms', .inr h, k⟩
    · rintro (⟨m', e | h⟩ | ⟨v', ms', e | h, k⟩)
      · cases e
      · exact .inr (.inl ⟨m', h⟩)
      · cases e; exact .inl k
      · exact .inr (.inr ⟨v', ms', h, k⟩)
  | case7 ts ih =>
    intro fs h
    rw [ih h]
    simp

theorem second_err {p : Proj} : ∀ {ts : List Tgt},
    (∃ x, second p ts = .error x) ↔ ∃ v, .group v none ∈ ts := by
  intro ts
  fun_induction second p ts with
  | case1 => simp
  | case2 g m ts x hx ih => simpa [hx] using ih
  | case3 g m ts gs hx ih => simpa [hx] using ih
  | case4 v ts => simp
  | case5 v ms ts x hx ih => simpa [hx] using ih
  | case6 v ms ts gs hx ih => simpa [hx] using ih
  | case7 ts ih => simpa using ih

/-- What is collected in the end. -/
theorem collected {p : Proj} {ts : List Tgt} {fs : List File} (h : second p (first p ts) = .ok fs)
    (f : File) : f ∈ fs ↔ Known ts f ∧ Chosen p f := by
  rw [mem_second h]
  simp only [mem_first]
  constructor
  · rintro (⟨m, k, rfl, c⟩ | ⟨v, ms, ⟨k, c⟩, i, e⟩)
    · exact ⟨.inl k, c⟩
    · exact ⟨.inr ⟨v, ms, k, c, i⟩, e⟩
  · rintro ⟨k | ⟨v, ms, k, c, i⟩, e⟩
    · exact .inl ⟨false, k, rfl, e⟩
    · exact .inr ⟨v, ms, ⟨k, c⟩, i, e⟩

theorem Leads.inv {d e : Dir} {x : String} {xs : List String} (h : Leads d (x :: xs) e) :
    (x = "." ∧ Leads d xs e) ∨ (x = ".." ∧ ∃ d' c, d = d' ++ [c] ∧ Leads d' xs e) ∨
      (x ≠ "." ∧ x ≠ ".." ∧ Leads (d ++ [x]) xs e) := by
  cases h with
  | dot h => exact .inl ⟨rfl, h⟩
  | up h => exact .inr (.inl ⟨rfl, _, _, rfl, h⟩)
  | down a b h => exact .inr (.inr ⟨a, b, h⟩)

theorem normalize_iff {d e : Dir} {xs : List String} : normalize d xs = .ok e ↔ Leads d xs e := by
  fun_induction normalize d xs with
  | case1 d =>
    constructor
    · intro h; cases h; exact .done
    · intro h; cases h; rfl
  | case2 d x xs hx ih =>
    have : x = "." := by simpa using hx
    subst this
    rw [ih]
    constructor
    · exact .dot
    · intro h
      rcases h.inv with ⟨_, h⟩ | ⟨h, _⟩ | ⟨h, _⟩
      · exact h
      · exact absurd h (by decide)
      · exact absurd rfl h
  | case3 d x xs h1 hx hd =>
    have : x = ".." := by simpa using hx
    subst this
    have : d = [] := by simpa using hd
    subst this
    constructor
    · intro h; cases h
    · intro h
      rcases h.inv with ⟨h, _⟩ | ⟨_, d', c, h, _⟩ | ⟨_, h, _⟩
      · exact absurd h (by decide)
      · simp at h
      · exact absurd rfl h
  | case4 d x xs h1 hx hd ih =>
    have : x = ".." := by simpa using hx
    subst this
    rw [ih]
    have hne : d ≠ [] := by simpa using hd
    constructor
    · intro h
      have := Leads.up (c := d.getLast hne) h
      rwa [List.dropLast_concat_getLast hne] at this
    · intro h
      rcases h.inv with ⟨h, _⟩ | ⟨_, d', c, rfl, h'⟩ | ⟨_, h, _⟩
      · exact absurd h (by decide)
      · simpa using h'
      · exact absurd rfl h
  | case5 d x xs h1 h2 ih =>
    rw [ih]
    have n1 : x ≠ "." := by simpa using h1
    have n2 : x ≠ ".." := by simpa using h2
    constructor
    · exact .down n1 n2
    · intro h
      cases h with
      | dot h => exact absurd rfl n1
      | up h => exact absurd rfl n2
      | down _ _ h => exact h

theorem leaf_iff {p : Proj} {d r : Dir} : leaf p d = .ok r ↔ Within p d r := by
  unfold leaf Within
  by_cases h : p.src <+: d
  · have h' : p.src.isPrefixOf d = true := List.isPrefixOf_iff_prefix.2 h
    obtain ⟨s, rfl⟩ := h
    simp [h', eq_comm]
  · have h' : p.src.isPrefixOf d = false := by
      rw [Bool.eq_false_iff]; intro q; exact h (List.isPrefixOf_iff_prefix.1 q)
    have hn : d ≠ p.src ++ r := by rintro rfl; exact h (List.prefix_append _ _)
    by_cases g : p.out <+: d
    · have g' : p.out.isPrefixOf d = true := List.isPrefixOf_iff_prefix.2 g
      obtain ⟨s, rfl⟩ := g
      simp only [h', g', if_pos, List.drop_left, hn, h, not_false_iff, true_and,
        false_or, List.append_cancel_left_eq]
      simp [eq_comm]
    · have g' : p.out.isPrefixOf d = false := by
        rw [Bool.eq_false_iff]; intro q; exact g (List.isPrefixOf_iff_prefix.1 q)
      have gn : d ≠ p.out ++ r := by rintro rfl; exact g (List.prefix_append _ _)
      simp [h', g', hn, gn]

theorem place_iff {p : Proj} {f : File} {r : Dir} : place p f = .ok r ↔ Dest p f r := by
  have key : ∀ d n, (match leaf p d with
      | .error x => (.error x : Except Err Dir)
      | .ok dl => .ok (dl ++ [n])) = .ok r ↔ ∃ rel, Within p d rel ∧ r = rel ++ [n] := by
    intro d n
    cases h : leaf p d with
    | error x =>
      simp only [reduceCtorEq, false_iff]
      rintro ⟨rel, w, -⟩
      rw [← leaf_iff, h] at w
      cases w
    | ok dl =>
      have w := leaf_iff.1 h
      constructor
      · intro e; cases e; exact ⟨dl, w, rfl⟩
      · rintro ⟨rel, w', rfl⟩
        rw [← leaf_iff, h] at w'
        cases w'
        rfl
  unfold place Dest
  rcases hd : f.dist with _ | _ | _ | _ | ⟨a, xs, n⟩
  · exact key f.dir f.name
  · exact key f.dir f.name
  · exact key f.dir f.name
  · simp
  · show _ ↔ ∃ d rel, Leads (if a then [] else f.dir) xs d ∧ Within p d rel ∧ r = rel ++ [n.getD f.name]
    simp only []
    cases h : normalize (if a then [] else f.dir) xs with
    | error x =>
      simp only [reduceCtorEq, false_iff]
      rintro ⟨d, rel, w, -⟩
      rw [← normalize_iff, h] at w
      cases w
    | ok d =>
      refine (key d (n.getD f.name)).trans ?_
      constructor
      · rintro ⟨rel, w⟩; exact ⟨d, rel, normalize_iff.1 h, w⟩
      · rintro ⟨d', rel, w, k⟩
        rw [← normalize_iff, h] at w
        cases w
        exact ⟨rel, k⟩

theorem place_err {p : Proj} {f : File} : (∃ x, place p f = .error x) ↔ Misplaced p f := by
  constructor
  · rintro ⟨x, h⟩ r d
    rw [← place_iff, h] at d
    cases d
  · intro h
    cases e : place p f with
    | error x => exact ⟨x, rfl⟩
    | ok r => exact absurd (place_iff.1 e) (h r)

/-- Copying with the detection of duplicates. -/
theorem install_ok {p : Proj} : ∀ {fs : List File} {m r : List (Dir × Nat)},
    install p false fs m = .ok r ↔
      ∃ ds : List Dir, fs.map (place p) = ds.map (.ok ·) ∧ r = m ++ ds.zip (fs.map (·.content)) ∧
        ds.Nodup ∧ ∀ d ∈ ds, ∀ c, (d, c) ∉ m := by
  intro fs
  induction fs with
  | nil =>
    intro m r
    simp only [install, Except.ok.injEq, List.map_nil]
    constructor
    · rintro rfl; exact ⟨[], rfl, by simp, by simp, by simp⟩
    · rintro ⟨ds, h, rfl, -⟩; simp
  | cons f fs ih =>
    intro m r
    simp only [install]
    cases h : place p f with
    | error x =>
      simp only [reduceCtorEq, false_iff]
      rintro ⟨ds, e, -⟩
      cases ds with
      | nil => simp at e
      | cons d ds => simp [h] at e
    | ok a =>
      simp only [Bool.false_eq_true, if_false]
      by_cases hm : m.any (fun e => e.1 == a) = true
      · rw [if_pos hm]
        simp only [reduceCtorEq, false_iff]
        rintro ⟨ds, e, -, -, k⟩
        cases ds with
        | nil => simp at e
        | cons d ds =>
          simp only [List.map_cons, h, List.cons.injEq, Except.ok.injEq] at e
          obtain ⟨⟨d', c⟩, i, j⟩ := List.any_eq_true.1 hm
          have : d' = a := by simpa using j
          subst this
          exact k d List.mem_cons_self c (e.1 ▸ i)
      · rw [if_neg hm, ih]
        have hm' : ∀ c, (a, c) ∉ m := by
          intro c i
          exact hm (List.any_eq_true.2 ⟨(a, c), i, by simp⟩)
        constructor
        · rintro ⟨ds, e, rfl, nd, k⟩
          refine ⟨a :: ds, by simp [h, e], by simp, ?_, ?_⟩
          · refine List.nodup_cons.2 ⟨fun i => ?_, nd⟩
            exact k a i f.content (by simp)
          · intro d i c j
            rcases List.mem_cons.1 i with rfl | i
            · exact hm' c j
            · exact k d i c (by simp [j])
        · rintro ⟨ds, e, rfl, nd, k⟩
          cases ds with
          | nil => simp at e
          | cons d ds =>
            simp only [List.map_cons, h, List.cons.injEq, Except.ok.injEq] at e
            obtain ⟨rfl, e⟩ := e
            have nd' := List.nodup_cons.1 nd
            refine ⟨ds, e, by simp, nd'.2, ?_⟩
            intro d i c j
            rcases List.mem_append.1 j with j | j
            · exact k d (List.mem_cons_of_mem _ i) c j
            · simp only [List.mem_singleton, Prod.mk.injEq] at j
              exact nd'.1 (j.1 ▸ i)

theorem mem_zip_map {p : Proj} : ∀ {fs : List File} {ds : List Dir},
    fs.map (place p) = ds.map (.ok ·) → ∀ r c, (r, c) ∈ ds.zip (fs.map (·.content)) ↔
      ∃ f ∈ fs, place p f = .ok r ∧ f.content = c := by
  intro fs
  induction fs with
  | nil => intro ds h r c; cases ds <;> simp_all
  | cons f fs ih =>
    intro ds h r c
    cases ds with
    | nil => simp at h
    | cons d ds =>
      simp only [List.map_cons, List.cons.injEq] at h
      simp only [List.map_cons, List.zip_cons_cons, List.mem_cons, Prod.mk.injEq, ih h.2]
      constructor
      · rintro (⟨rfl, rfl⟩ | ⟨g, i, k⟩)
        · exact ⟨f, .inl rfl, h.1, rfl⟩
        · exact ⟨g, .inr i, k⟩
      · rintro ⟨g, rfl | i, k⟩
        · rw [h.1] at k
          exact .inl ⟨by cases k.1; rfl, k.2.symm⟩
        · exact .inr ⟨g, i, k⟩

theorem ignored_iff {n : String} : ignored n = true ↔ Ignored n := by
  unfold ignored Ignored
  rw [Bool.or_eq_true, Bool.or_eq_true, Bool.or_eq_true, List.isPrefixOf_iff_prefix]
  simp only [beq_iff_eq, or_assoc]

/-! ## Failures -/

theorem listed_of_second {p : Proj} : ∀ {ts : List Tgt} {fs : List File},
    second p (first p ts) = .ok fs → fs = (listed ts).filter (collect p) := by
  intro ts
  fun_induction first p ts with
  | case1 => intro fs h; cases h; rfl
  | case2 ms ts x hx ih =>
    intro fs h
    have hx' : x ≠ .no := by simpa using hx
    cases ms with
    | none => cases h
    | some ms =>
      simp only [second] at h
      cases h2 : second p (first p ts) with
      | error e => rw [h2] at h; cases h
      | ok gs =>
        rw [h2] at h
        cases h
        rw [ih h2]
        cases x with
        | no => exact absurd rfl hx'
        | _ => simp [listed]
  | case3 ms ts x hx ih =>
    intro fs h
    have hx' : x = .no := by simpa using hx
    subst hx'
    rw [ih h]
    simp [listed]
  | case4 ms ts ih => intro fs h; rw [ih h]; simp [listed]
  | case5 ts ih => intro fs h; rw [ih h]; simp [listed]
  | case6 f ts ih => intro fs h; rw [ih h]; simp [listed]
  | case7 f m ts hm hc ih =>
    intro fs h
    have : m = false := by simpa using hm
    subst this
    simp only [second] at h
    cases h2 : second p (first p ts) with
    | error e => rw [h2] at h; cases h
    | ok gs =>
      rw [h2] at h
      cases h
      rw [ih h2]
      simp [listed, hc]
  | case8 f m ts hm hc ih =>
    intro fs h
    have : m = false := by simpa using hm
    subst this
    rw [ih h]
    simp [listed, hc]

theorem Dest.unique {p : Proj} {f : File} {r r' : Dir} (h : Dest p f r) (h' : Dest p f r') :
    r = r' := by
  rw [← place_iff] at h h'
  rw [h] at h'
  cases h'
  rfl

/-- Copying succeeds if and only if every file has a place and no two have the same. -/
theorem install_some {p : Proj} {fs : List File} : (∃ m, install p false fs [] = .ok m) ↔
    (∀ f ∈ fs, ∃ r, Dest p f r) ∧ fs.Pairwise (fun f g => ∀ r, Dest p f r → ¬ Dest p g r) := by
  have : (∃ m, install p false fs [] = .ok m) ↔
      ∃ ds : List Dir, fs.map (place p) = ds.map (.ok ·) ∧ ds.Nodup := by
    constructor
    · rintro ⟨m, h⟩
      obtain ⟨ds, a, -, b, -⟩ := install_ok.1 h
      exact ⟨ds, a, b⟩
    · rintro ⟨ds, a, b⟩
      exact ⟨_, install_ok.2 ⟨ds, a, rfl, b, by simp⟩⟩
  rw [this]
  clear this
  induction fs with
  | nil => exact ⟨fun _ => ⟨by simp, .nil⟩, fun _ => ⟨[], rfl, by simp⟩⟩
  | cons f fs ih =>
    constructor
    · rintro ⟨ds, e, nd⟩
      cases ds with
      | nil => simp at e
      | cons d ds =>
        simp only [List.map_cons, List.cons.injEq] at e
        have nd' := List.nodup_cons.1 nd
        obtain ⟨a, b⟩ := ih.1 ⟨ds, e.2, nd'.2⟩
        refine ⟨?_, List.pairwise_cons.2 ⟨?_, b⟩⟩
        · intro g hg
          rcases List.mem_cons.1 hg with rfl | hg
          · exact ⟨d, place_iff.1 e.1⟩
          · exact a g hg
        · intro g hg r h1 h2
          rw [← place_iff] at h1 h2
          rw [e.1] at h1
          cases h1
          have : place p g ∈ ds.map (.ok ·) := e.2 ▸ List.mem_map_of_mem hg
          obtain ⟨d', i, j⟩ := List.mem_map.1 this
          rw [h2] at j
          cases j
          exact nd'.1 i
    · rintro ⟨a, b⟩
      obtain ⟨b1, b2⟩ := List.pairwise_cons.1 b
      obtain ⟨ds, e, nd⟩ := ih.2 ⟨fun g hg => a g (List.mem_cons_of_mem _ hg), b2⟩
      obtain ⟨d, hd⟩ := a f List.mem_cons_self
      refine ⟨d :: ds, by simp [place_iff.2 hd, e], List.nodup_cons.2 ⟨fun i => ?_, nd⟩⟩
      have : (.ok d : Except Err Dir) ∈ fs.map (place p) := e ▸ List.mem_map_of_mem i
      obtain ⟨g, hg, k⟩ := List.mem_map.1 this
      exact b1 g hg d hd (place_iff.1 k)

/-! ## All files of the source directory -/

theorem entries_sound {k : Disk} {src : Dir} (n : Nat)
    (ih : ∀ c real rel fs, Visits k src c real rel → addSubdir k src n c real rel = some fs →
      ∀ r x, (r, x) ∈ fs → Has k src r x) {c : List Dir} {real rel : Dir}
    (hv : Visits k src c real rel) : ∀ (es : List (String × Entry)) (fs : List (Dir × Nat)),
    (∀ e ∈ es, e ∈ k real) → entries (addSubdir k src n ((src ++ rel) :: c)) ((src ++ rel) :: c) real rel es = some fs →
    ∀ r x, (r, x) ∈ fs → Has k src r x := by
  intro es
  induction es with
  | nil => intro fs _ h r x i; simp [entries] at h; subst h; cases i
  | cons e es ihe =>
    intro fs hs h r x i
    obtain ⟨y, e⟩ := e
    have hs' : ∀ e ∈ es, e ∈ k real := fun e he => hs e (List.mem_cons_of_mem _ he)
    simp only [entries] at h
    by_cases hi : ignored y = true
    · rw [if_pos hi] at h
      exact ihe fs hs' h r x i
    · rw [if_neg hi] at h
      have hi' : ¬ Ignored y := fun q => hi (ignored_iff.2 q)
      cases e with
      | file z =>
        simp only [] at h
        cases h2 : entries (addSubdir k src n ((src ++ rel) :: c)) ((src ++ rel) :: c) real rel es with
        | none => rw [h2] at h; cases h
        | some gs =>
          rw [h2] at h
          cases h
          rcases List.mem_cons.1 i with e | i
          · cases e
            exact ⟨c, real, rel, y, hv, hs _ List.mem_cons_self, hi', rfl⟩
          · exact ihe gs hs' h2 r x i
      | dir =>
        simp only [] at h
        cases h1 : addSubdir k src n ((src ++ rel) :: c) (real ++ [y]) (rel ++ [y]) with
        | none => rw [h1] at h; cases h
        | some ds =>
          cases h2 : entries (addSubdir k src n ((src ++ rel) :: c)) ((src ++ rel) :: c) real rel es with
          | none => rw [h1, h2] at h; cases h
          | some gs =>
            rw [h1, h2] at h
            cases h
            rcases List.mem_append.1 i with i | i
            · exact ih _ _ _ _ (.dir hv (hs _ List.mem_cons_self) hi') h1 r x i
            · exact ihe gs hs' h2 r x i
      | link td =>
        simp only [] at h
        by_cases hc : ((src ++ rel) :: c).contains td = true
        · rw [if_pos hc] at h; cases h; cases i
        · rw [if_neg hc] at h
          have hc' : td ∉ (src ++ rel) :: c := fun q => hc (by simpa using q)
          cases h1 : addSubdir k src n ((src ++ rel) :: c) td (rel ++ [y]) with
          | none => rw [h1] at h; cases h
          | some ds =>
            cases h2 : entries (addSubdir k src n ((src ++ rel) :: c)) ((src ++ rel) :: c) real rel es with
            | none => rw [h1, h2] at h; cases h
            | some gs =>
              rw [h1, h2] at h
              cases h
              rcases List.mem_append.1 i with i | i
              · exact ih _ _ _ _ (.link hv (hs _ List.mem_cons_self) hi' hc') h1 r x i
              · exact ihe gs hs' h2 r x i

theorem addSubdir_sound {k : Disk} {src : Dir} : ∀ (n : Nat) (c : List Dir) (real rel : Dir)
    (fs : List (Dir × Nat)), Visits k src c real rel → addSubdir k src n c real rel = some fs →
    ∀ r x, (r, x) ∈ fs → Has k src r x := by
  intro n
  induction n with
  | zero => intro c real rel fs _ h; simp [addSubdir] at h
  | succ n ih =>
    intro c real rel fs hv h
    simp only [addSubdir] at h
    exact entries_sound n ih hv (k real) fs (fun _ h => h) h

/-- If no link leads back then every entry has been dealt with. -/
theorem entries_complete {k : Disk} {src : Dir} {n : Nat} {chain : List Dir} {real rel : Dir} :
    ∀ {es : List (String × Entry)} {fs : List (Dir × Nat)},
    (∀ y td, (y, .link td) ∈ es → ¬ Ignored y → td ∉ chain) →
    entries (addSubdir k src n chain) chain real rel es = some fs →
    (∀ y z, (y, .file z) ∈ es → ¬ Ignored y → (rel ++ [y], z) ∈ fs) ∧
    (∀ y, (y, .dir) ∈ es → ¬ Ignored y → ∃ gs,
      addSubdir k src n chain (real ++ [y]) (rel ++ [y]) = some gs ∧ ∀ e ∈ gs, e ∈ fs) ∧
    (∀ y td, (y, .link td) ∈ es → ¬ Ignored y → ∃ gs,
      addSubdir k src n chain td (rel ++ [y]) = some gs ∧ ∀ e ∈ gs, e ∈ fs) := by
  intro es
  induction es with
  | nil => intro fs _ _; simp
  | cons e es ih =>
    intro fs hb h
    obtain ⟨y, e⟩ := e
    have hb' : ∀ y td, (y, .link td) ∈ es → ¬ Ignored y → td ∉ chain :=
      fun y td i => hb y td (List.mem_cons_of_mem _ i)
    simp only [entries] at h
    by_cases hi : ignored y = true
    · rw [if_pos hi] at h
      obtain ⟨a, b, c⟩ := ih hb' h
      have hy := ignored_iff.1 hi
      refine ⟨?_, ?_, ?_⟩
      · intro y' z i ni
        rcases List.mem_cons.1 i with e | i
        · cases e; exact absurd hy ni
        · exact a y' z i ni
      · intro y' i ni
        rcases List.mem_cons.1 i with e | i
        · cases e; exact absurd hy ni
        · exact b y' i ni
      · intro y' td i ni
        rcases List.mem_cons.1 i with e | i
        · cases e; exact absurd hy ni
        · exact c y' td i ni
    · rw [if_neg hi] at h
      have hi' : ¬ Ignored y := fun q => hi (ignored_iff.2 q)
      cases e with
      | file z =>
        simp only [] at h
        cases h2 : entries (addSubdir k src n chain) chain real rel es with
        | none => rw [h2] at h; cases h
        | some gs =>
          rw [h2] at h
          cases h
          obtain ⟨a, b, c⟩ := ih hb' h2
          refine ⟨?_, ?_, ?_⟩
          · intro y' z' i ni
            rcases List.mem_cons.1 i with e | i
            · cases e; exact List.mem_cons_self
            · exact List.mem_cons_of_mem _ (a y' z' i ni)
          · intro y' i ni
            rcases List.mem_cons.1 i with e | i
            · cases e
            · obtain ⟨ds, d, f⟩ := b y' i ni
              exact ⟨ds, d, fun e he => List.mem_cons_of_mem _ (f e he)⟩
          · intro y' td i ni
            rcases List.mem_cons.1 i with e | i
            · cases e
            · obtain ⟨ds, d, f⟩ := c y' td i ni
              exact ⟨ds, d, fun e he => List.mem_cons_of_mem _ (f e he)⟩
      | dir =>
        simp only [] at h
        cases h1 : addSubdir k src n chain (real ++ [y]) (rel ++ [y]) with
        | none => rw [h1] at h; cases h
        | some ds =>
          cases h2 : entries (addSubdir k src n chain) chain real rel es with
          | none => rw [h1, h2] at h; cases h
          | some gs =>
            rw [h1, h2] at h
            cases h
            obtain ⟨a, b, c⟩ := ih hb' h2
            refine ⟨?_, ?_, ?_⟩
            · intro y' z' i ni
              rcases List.mem_cons.1 i with e | i
              · cases e
              · exact List.mem_append_right _ (a y' z' i ni)
            · intro y' i ni
              rcases List.mem_cons.1 i with e | i
              · cases e; exact ⟨ds, h1, fun e he => List.mem_append_left _ he⟩
              · obtain ⟨ds', d, f⟩ := b y' i ni
                exact ⟨ds', d, fun e he => List.mem_append_right _ (f e he)⟩
            · intro y' td i ni
              rcases List.mem_cons.1 i with e | i
              · cases e
              · obtain ⟨ds', d, f⟩ := c y' td i ni
                exact ⟨ds', d, fun e he => List.mem_append_right _ (f e he)⟩
      | link td =>
        simp only [] at h
        have hc : ¬ chain.contains td = true := fun q =>
          hb y td List.mem_cons_self hi' (by simpa using q)
        rw [if_neg hc] at h
        cases h1 : addSubdir k src n chain td (rel ++ [y]) with
        | none => rw [h1] at h; cases h
        | some ds =>
          cases h2 : entries (addSubdir k src n chain) chain real rel es with
          | none => rw [h1, h2] at h; cases h
          | some gs =>
            rw [h1, h2] at h
            cases h
            obtain ⟨a, b, c⟩ := ih hb' h2
            refine ⟨?_, ?_, ?_⟩
            · intro y' z' i ni
              rcases List.mem_cons.1 i with e | i
              · cases e
              · exact List.mem_append_right _ (a y' z' i ni)
            · intro y' i ni
              rcases List.mem_cons.1 i with e | i
              · cases e
              · obtain ⟨ds', d, f⟩ := b y' i ni
                exact ⟨ds', d, fun e he => List.mem_append_right _ (f e he)⟩
            · intro y' td i ni
              rcases List.mem_cons.1 i with e | i
              · cases e; exact ⟨ds, h1, fun e he => List.mem_append_left _ he⟩
              · obtain ⟨ds', d, f⟩ := c y' td i ni
                exact ⟨ds', d, fun e he => List.mem_append_right _ (f e he)⟩

theorem addSubdir_complete {k : Disk} {src : Dir} {n : Nat} {fs : List (Dir × Nat)}
    (hb : NoBack k src) (h : bootstrapDist k src n = some fs) {c : List Dir} {real rel : Dir}
    (hv : Visits k src c real rel) :
    ∃ m gs, addSubdir k src m c real rel = some gs ∧ ∀ e ∈ gs, e ∈ fs := by
  induction hv with
  | root => exact ⟨n, fs, h, fun _ h => h⟩
  | @dir c real rel y hv hm hi ih =>
    obtain ⟨m, gs, a, b⟩ := ih
    cases m with
    | zero => simp [addSubdir] at a
    | succ m =>
      simp only [addSubdir] at a
      obtain ⟨gs', d, e⟩ := (entries_complete (fun y td i ni => hb _ _ _ y td hv i ni) a).2.1 y hm hi
      exact ⟨m, gs', d, fun x hx => b x (e x hx)⟩
  | @link c real rel y td hv hm hi _ ih =>
    obtain ⟨m, gs, a, b⟩ := ih
    cases m with
    | zero => simp [addSubdir] at a
    | succ m =>
      simp only [addSubdir] at a
      obtain ⟨gs', d, e⟩ :=
        (entries_complete (fun y td i ni => hb _ _ _ y td hv i ni) a).2.2 y td hm hi
      exact ⟨m, gs', d, fun x hx => b x (e x hx)⟩

/-- The limit on the depth isn't reached if no directory is that deep. -/
theorem addSubdir_ends {k : Disk} {src : Dir} {n : Nat}
    (hd : ∀ c real rel, Visits k src c real rel → c.length < n) :
    ∀ (m : Nat) (c : List Dir) (real rel : Dir), Visits k src c real rel → m + c.length = n →
      ∃ fs, addSubdir k src m c real rel = some fs := by
  intro m
  induction m with
  | zero => intro c real rel hv e; exact absurd (hd _ _ _ hv) (by omega)
  | succ m ih =>
    intro c real rel hv e
    simp only [addSubdir]
    have key : ∀ es : List (String × Entry), (∀ e ∈ es, e ∈ k real) →
        ∃ fs, entries (addSubdir k src m ((src ++ rel) :: c)) ((src ++ rel) :: c) real rel es = some fs := by
      intro es
      induction es with
      | nil => intro _; exact ⟨[], by simp [entries]⟩
      | cons x es ihe =>
        intro hs
        obtain ⟨y, x⟩ := x
        obtain ⟨gs, hg⟩ := ihe fun e he => hs e (List.mem_cons_of_mem _ he)
        simp only [entries]
        by_cases hi : ignored y = true
        · rw [if_pos hi]; exact ⟨gs, hg⟩
        · rw [if_neg hi]
          have hi' : ¬ Ignored y := fun q => hi (ignored_iff.2 q)
          cases x with
          | file z => simp only [hg]; exact ⟨_, rfl⟩
          | dir =>
            obtain ⟨ds, h1⟩ := ih _ _ _ (.dir hv (hs _ List.mem_cons_self) hi') (by simp; omega)
            simp only [hg, h1]; exact ⟨_, rfl⟩
          | link td =>
            simp only []
            by_cases hc : ((src ++ rel) :: c).contains td = true
            · rw [if_pos hc]; exact ⟨_, rfl⟩
            · rw [if_neg hc]
              have hc' : td ∉ (src ++ rel) :: c := fun q => hc (by simpa using q)
              obtain ⟨ds, h1⟩ :=
                ih _ _ _ (.link hv (hs _ List.mem_cons_self) hi' hc') (by simp; omega)
              simp only [hg, h1]; exact ⟨_, rfl⟩
    exact key (k real) fun _ h => h

end Verif.Dist
