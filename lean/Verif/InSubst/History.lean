import Verif.InSubst.Db
import Verif.InSubst.Unique

/-!
# Substitutions in `.in` files: histories
-/

namespace Verif.InSubst

variable {hash : Str → Str} {e : Env}

/-! ## Names -/

/-- A name that would be substituted. -/
def NameOk (strict : Bool) (n : Str) : Prop := n ≠ [] ∧ (strict = false → IsVar n)

theorem reads_names {strict : Bool} {sym : Char} {s : Str} {gs : List Seg} {ok : Bool} (h : Reads strict sym s gs ok) :
    ∀ n ∈ lineNames gs, NameOk strict n := by
  unfold Reads at h
  cases strict with
  | true =>
    rw [if_pos rfl] at h
    induction h with
    | nil => simp [lineNames]
    | char _ _ ih => rw [lineNames_lit]; exact ih
    | escape _ _ ih => rw [lineNames_lit]; exact ih
    | sub hn _ _ ih =>
      rw [lineNames_sub]
      intro n hm
      rcases List.mem_cons.1 hm with rfl | hm
      · exact ⟨hn, by simp⟩
      · exact ih n hm
    | unterminated => simp [lineNames]
  | false =>
    rw [if_neg (by simp)] at h
    obtain ⟨h, _⟩ := h
    have hmap : ∀ (u : Str) (gs : List Seg), lineNames (u.map .lit ++ gs) = lineNames gs := by
      intro u gs
      induction u with
      | nil => rfl
      | cons c u ih => rw [List.map_cons, List.cons_append, lineNames_lit, ih]
    induction h with
    | nil => simp [lineNames]
    | char _ _ ih => rw [lineNames_lit]; exact ih
    | double _ ih => rw [lineNames_lit]; exact ih
    | sub hn _ hv _ ih =>
      rw [lineNames_sub]
      intro n hm
      rcases List.mem_cons.1 hm with rfl | hm
      · exact ⟨hn, fun _ => hv⟩
      · exact ih n hm
    | other _ _ _ _ ih => rw [hmap]; exact ih
    | @unterminated s _ =>
      have := hmap (sym :: s) []
      rw [List.append_nil] at this
      rw [this]
      simp [lineNames]

theorem doc_names {strict : Bool} {sym : Char} {ls : List Line} {d : List (List Seg × Eol)} {ok : Bool}
    (h : Doc strict sym ls d ok) : ∀ k, ∀ p ∈ names k d, NameOk strict p.2 := by
  induction h with
  | nil => intro k; simp [names]
  | line hg _ ih =>
    intro k p hp
    rcases List.mem_append.1 hp with hp | hp
    · obtain ⟨n, hn, rfl⟩ := List.mem_map.1 hp
      exact reads_names hg n hn
    · exact ih _ p hp
  | bad hg =>
    intro k p hp
    rcases List.mem_append.1 hp with hp | hp
    · obtain ⟨n, hn, rfl⟩ := List.mem_map.1 hp
      exact reads_names hg n hn
    · simp [names] at hp

theorem substitute_ok {n : Str} (h : NameOk e.strict n) : substitute e n = (lookup e n).map some := by
  unfold substitute
  have : (!e.strict && !scan true n) = false := by
    cases hs : e.strict with
    | true => rfl
    | false => rw [scan_isVar.2 (h.2 hs)]; rfl
  rw [this]
  cases lookup e n <;> rfl

/-! ## The database of a file -/

/-- The lines for the names. -/
def entries (hash : Str → Str) (val : Str → Str) (ps : List (Nat × Str)) : List Str :=
  ps.map fun p => entry hash p.1 p.2 (val p.2)

theorem saves_out (ps : List (Nat × Str)) : ∀ (ls : List Str) (j : Nat),
    (saves hash e ps ⟨.out ls, j⟩).dd = .out (ls ++ entries hash e.val (ps.drop j)) := by
  induction ps with
  | nil => intro ls j; simp [saves, entries]
  | cons p ps ih =>
    intro ls j
    cases j with
    | zero =>
      have : saves hash e (p :: ps) ⟨.out ls, 0⟩ = saves hash e ps ⟨.out (ls ++ [entry hash p.1 p.2 (e.val p.2)]), 0⟩ := rfl
      rw [this, ih]
      simp [entries]
    | succ j =>
      have : saves hash e (p :: ps) ⟨.out ls, j + 1⟩ = saves hash e ps ⟨.out ls, j⟩ := rfl
      rw [this, ih]
      simp

/-- What is known about what is on disk: if the database is for this environment and this file and the file
has not changed, then the lines are for the names in the file, and if there are all of them, then the output is
for the same values. -/
def Inv (hash : Str → Str) (w : Disk) : Prop :=
  ∀ ls b, w.db = some (ls, b) → ∀ e : Env, header e <+: ls → w.stale e.path = false →
    ∀ d ok, Source e.strict e.sym (w.files e.path) d ok →
      ∃ val ps qs, names 1 d = ps ++ qs ∧ ls = header e ++ entries hash val ps ∧
        (b = true → w.newer = false → ∀ o, w.out = some o → qs = [] ∧ ok = true ∧ o = output val d)

theorem header_eq {e e' : Env} (h : header e = header e') : e.sym = e'.sym ∧ e.strict = e'.strict ∧ e.path = e'.path := by
  unfold header at h
  simp only [List.cons.injEq, and_true] at h
  refine ⟨h.2.1, ?_, h.2.2.2⟩
  have h3 := h.2.2.1
  cases h1 : e.strict <;> cases h2 : e'.strict <;> rw [h1, h2] at h3 <;> first | rfl | exact absurd h3 (by decide)

theorem header_prefix {e e' : Env} {ls : List Str} (h : header e <+: header e' ++ ls) : header e = header e' := by
  obtain ⟨r, hr⟩ := h
  exact (List.append_inj hr rfl).1

/-- All the names have values. -/
abbrev AllHas (e : Env) (d : List (List Seg × Eol)) : Prop := ∀ p ∈ names 1 d, Has e p.2

/-- The outcomes of an update. -/
inductive Outcome (hash : Str → Str) (w : Disk) (e : Env) (d : List (List Seg × Eol)) (ok : Bool) : View × Result → Prop
  | updated : ok = true → AllHas e d →
      Outcome hash w e d ok (.out (header e ++ entries hash e.val (names 1 d)), .updated (output e.val d))
  | unchanged {v : View} {val : Str → Str} : ok = true → AllHas e d → v.writing = false →
      w.stale e.path = false → w.newer = false →
      w.db = some (header e ++ entries hash val (names 1 d), true) → w.out = some (output val d) →
      (∀ p ∈ names 1 d, hash (val p.2) = hash (e.val p.2)) → Outcome hash w e d ok (v, .unchanged)
  | early {v : View} {x : Err} : ¬ (ok = true ∧ AllHas e d) → x ≠ .assertion → v.writing = false →
      Outcome hash w e d ok (v, .error x)
  | failed {x : Err} {ps qs : List (Nat × Str)} : ¬ (ok = true ∧ AllHas e d) → x ≠ .assertion → names 1 d = ps ++ qs →
      Outcome hash w e d ok (.out (header e ++ entries hash e.val ps), .error x)

theorem perform_outcome {w : Disk} {d : List (List Seg × Eol)} {ok : Bool}
    (h : Source e.strict e.sym (w.files e.path) d ok) (rs qs : List (Nat × Str)) (hr : names 1 d = rs ++ qs) :
    Outcome hash w e d ok (perform hash e (w.files e.path) ⟨.out (header e ++ entries hash e.val rs), rs.length⟩) := by
  have hp := perform_spec (hash := hash) h ⟨.out (header e ++ entries hash e.val rs), rs.length⟩
  by_cases hb : ok = true ∧ AllHas e d
  · rw [hp.1 hb.1 hb.2, saves_out, hr, List.drop_left, List.append_assoc]
    have : entries hash e.val rs ++ entries hash e.val qs = entries hash e.val (names 1 d) := by
      rw [hr]; simp [entries]
    rw [this]
    exact .updated hb.1 hb.2
  · obtain ⟨ps, qs', x, h1, _, hx, h3⟩ := hp.2 hb
    rw [h3, saves_out, List.append_assoc]
    by_cases hl : ps.length ≤ rs.length
    · rw [List.drop_eq_nil_iff.2 hl]
      have : entries hash e.val rs ++ entries hash e.val [] = entries hash e.val rs := by simp [entries]
      rw [this]
      exact .failed hb hx hr
    · have hpre : rs = ps.take rs.length := by
        have := congrArg (List.take rs.length) (hr.symm.trans h1)
        rw [List.take_left, List.take_append_of_le_length (by omega)] at this
        exact this
      have : entries hash e.val rs ++ entries hash e.val (ps.drop rs.length) = entries hash e.val ps := by
        have h2 : ps = rs ++ ps.drop rs.length := by
          conv => lhs; rw [← List.take_append_drop rs.length ps]
          rw [← hpre]
        conv => rhs; rw [h2]
        simp [entries]
      rw [this]
      exact .failed hb hx h1

theorem good_entry (hp : Plain hash) {val : Str → Str} {p : Nat × Str} (hn : NameOk e.strict p.2) :
    GoodLine hash e (entry hash p.1 p.2 (val p.2)) ↔ Has e p.2 ∧ hash (val p.2) = hash (e.val p.2) := by
  unfold GoodLine
  rw [parse_entry hp _ _ _ hn.1]
  refine ⟨?_, ?_⟩
  · rintro ⟨n, h, v, h1, h2, h3⟩
    injection h1 with h1
    injection h1 with h1 h1'
    subst h1
    subst h1'
    rw [substitute_ok hn] at h2
    cases hl : lookup e p.2 with
    | error x => rw [hl] at h2; cases h2
    | ok v' =>
      rw [hl] at h2
      injection h2 with h2
      injection h2 with h2
      subst h2
      exact ⟨⟨v', hl⟩, by rw [h3, lookup_val hl]⟩
  · rintro ⟨⟨v, hv⟩, h2⟩
    exact ⟨p.2, hash (val p.2), v, rfl, by rw [substitute_ok hn, hv]; rfl, by rw [h2, lookup_val hv]⟩

theorem first_bad {α : Type} {P : α → Prop} (l : List α) : (∀ x ∈ l, P x) ∨
    ∃ g x r, l = g ++ x :: r ∧ (∀ y ∈ g, P y) ∧ ¬ P x := by
  induction l with
  | nil => exact .inl (by simp)
  | cons a l ih =>
    by_cases ha : P a
    · rcases ih with h | ⟨g, x, r, h1, h2, h3⟩
      · refine .inl fun x hx => ?_
        rcases List.mem_cons.1 hx with rfl | hx
        · exact ha
        · exact h x hx
      · refine .inr ⟨a :: g, x, r, by rw [h1]; rfl, fun y hy => ?_, h3⟩
        rcases List.mem_cons.1 hy with rfl | hy
        · exact ha
        · exact h2 y hy
    · exact .inr ⟨[], a, l, rfl, by simp, ha⟩

theorem entries_same {val val' : Str → Str} {ps : List (Nat × Str)}
    (h : ∀ p ∈ ps, hash (val p.2) = hash (val' p.2)) : entries hash val ps = entries hash val' ps := by
  unfold entries
  apply List.map_congr_left
  intro p hp
  unfold entry
  rw [h p hp]

theorem update_outcome (hp : Plain hash) {w : Disk} (hi : Inv hash w) {d : List (List Seg × Eol)} {ok : Bool}
    (h : Source e.strict e.sym (w.files e.path) d ok) : Outcome hash w e d ok (w.update hash e) := by
  have h0 : Outcome hash w e d ok (perform hash e (w.files e.path) ⟨.out (header e), 0⟩) := by
    have := perform_outcome (hash := hash) h [] (names 1 d) rfl
    simpa [entries] using this
  unfold Disk.update InSubst.update
  dsimp only
  cases hdb : w.db with
  | none =>
    have : (header e).foldl View.expect (View.open none) = .out (header e) := foldl_expect_out _ []
    rw [this, if_pos (by simp [View.writing])]
    exact h0
  | some x =>
    obtain ⟨ls, b⟩ := x
    have hf := foldl_expect (header e) [] none ls b
    by_cases hpre : header e <+: ls
    · obtain ⟨r, rfl⟩ := hpre
      obtain ⟨done', cur', h1, h2⟩ := hf.1 r rfl
      have : (header e).foldl View.expect (View.open (some (header e ++ r, b))) = ⟨done', cur', some (r, b)⟩ := h1
      rw [this]
      have h2 : done' ++ cur'.toList = header e := by simpa using h2
      have hw : View.writing ⟨done', cur', some (r, b)⟩ = false := rfl
      rw [hw]
      by_cases hst : (w.stale e.path || w.out.isNone || false || w.newer) = true
      · rw [if_pos hst, if_neg (by simp), read_rewrite, h2]
        exact h0
      · rw [if_neg hst]
        simp only [Bool.or_eq_true, not_or, Bool.not_eq_true] at hst
        obtain ⟨⟨⟨hs, ho⟩, _⟩, hne⟩ := hst
        obtain ⟨o, ho⟩ : ∃ o, w.out = some o := by
          cases hx : w.out with
          | none => rw [hx] at ho; cases ho
          | some o => exact ⟨o, rfl⟩
        obtain ⟨val, ps, qs, hnm, hls, hcomp⟩ := hi _ b hdb e (List.prefix_append _ _) hs d ok h
        have hr : r = entries hash val ps := List.append_cancel_left hls
        have hnames := doc_names (h.choose_spec.2) 1
        have hn : ∀ p ∈ ps, NameOk e.strict p.2 := fun p hp => hnames p (by rw [hnm]; simp [hp])
        show Outcome hash w e d ok (match checkLoop hash e (r.length + 1) ⟨done', cur', some (r, b)⟩ 0 with
          | (v, .error x) => (v, .error x)
          | (v, .ok k) => if v.writing then perform hash e (w.files e.path) ⟨v, k⟩ else (v, .unchanged))
        have hc := checkLoop_spec (hash := hash) (e := e) r (r.length + 1) done' cur' b 0 (Nat.lt_succ_self _)
        rw [h2] at hc
        rcases first_bad (P := fun p : Nat × Str => Has e p.2 ∧ hash (val p.2) = hash (e.val p.2)) ps with
          hall | ⟨g, p, r', hg, hgood, hbad⟩
        · have hgl : ∀ l ∈ r, GoodLine hash e l := by
            intro l hl
            rw [hr] at hl
            obtain ⟨p, hpp, rfl⟩ := List.mem_map.1 hl
            exact (good_entry hp (hn p hpp)).2 (hall p hpp)
          cases b with
          | true =>
            obtain ⟨v, hv1, hv2, hv3⟩ := (hc.1 hgl).1 rfl
            rw [hv1]
            dsimp only
            rw [hv2, if_neg (by simp)]
            obtain ⟨hq, hok, ho'⟩ := hcomp rfl hne o ho
            subst hq
            rw [List.append_nil] at hnm
            refine .unchanged (val := val) hok ?_ hv2 hs hne ?_ (by rw [ho, ho']) ?_
            · intro p hp; rw [hnm] at hp; exact (hall p hp).1
            · rw [hdb, hr, hnm]
            · intro p hp; rw [hnm] at hp; exact (hall p hp).2
          | false =>
            rw [(hc.1 hgl).2 rfl]
            dsimp only
            rw [if_pos (by rfl), hr, entries_same fun p hp => (hall p hp).2]
            have := perform_outcome (hash := hash) h ps qs hnm
            rw [show 0 + (entries hash e.val ps).length = ps.length by simp [entries]]
            exact this
        · have hr' : r = entries hash val g ++ entry hash p.1 p.2 (val p.2) :: entries hash val r' := by
            rw [hr, hg]; simp [entries]
          have hpn : NameOk e.strict p.2 := hn p (by rw [hg]; simp)
          have hgl : ∀ l ∈ entries hash val g, GoodLine hash e l := by
            intro l hl
            obtain ⟨q, hq, rfl⟩ := List.mem_map.1 hl
            exact (good_entry hp (hn q (by rw [hg]; simp [hq]))).2 (hgood q hq)
          have hc' := hc.2 _ _ _ hr' hgl
          cases hl : lookup e p.2 with
          | error x =>
            obtain ⟨v, hv1, hv2⟩ := hc'.2.1 p.2 _ x (parse_entry hp _ _ _ hpn.1) (by rw [substitute_ok hpn, hl]; rfl)
            rw [hv1]
            refine .early ?_ (lookup_error hl) hv2
            rintro ⟨_, ha⟩
            obtain ⟨v, hv⟩ := ha p (by rw [hnm, hg]; simp)
            rw [hl] at hv
            cases hv
          | ok v =>
            have hne' : hash (val p.2) ≠ hash v := by
              intro hh
              exact hbad ⟨⟨v, hl⟩, by rw [hh, lookup_val hl]⟩
            rw [hc'.1 (.inr ⟨p.2, _, v, parse_entry hp _ _ _ hpn.1, by rw [substitute_ok hpn, hl]; rfl, hne'⟩)]
            dsimp only
            rw [if_pos (by rfl), entries_same fun p hp => (hgood p hp).2]
            have := perform_outcome (hash := hash) h g (p :: r' ++ qs) (by rw [hnm, hg]; simp)
            rw [show 0 + (entries hash e.val g).length = g.length by simp [entries]]
            exact this
    · have : (header e).foldl View.expect (View.open (some (ls, b))) = .out (header e) := hf.2 hpre
      rw [this, if_pos (by simp [View.writing])]
      exact h0

/-! ## The invariant holds -/

theorem inv_lines {w : Disk} {ls : List Str} {e0 : Env} {stale : Str → Bool} {newer : Bool} {out : Option Str} {b : Bool}
    {d0 : List (List Seg × Eol)} {ok0 : Bool} {ps qs : List (Nat × Str)}
    (hs : Source e0.strict e0.sym (w.files e0.path) d0 ok0) (hn : names 1 d0 = ps ++ qs)
    (hl : ls <+: header e0 ++ entries hash e0.val ps)
    (hb : b = true → newer = false → qs = [] ∧ ok0 = true ∧ ls = header e0 ++ entries hash e0.val ps ∧
      ∀ o, out = some o → o = output e0.val d0) :
    Inv hash ⟨w.files, stale, newer, some (ls, b), out⟩ := by
  intro ls' b' hdb e he _ d ok h
  injection hdb with hdb
  injection hdb with h1 h2
  subst h1
  subst h2
  have hh : header e = header e0 := header_prefix (he.trans hl)
  obtain ⟨r, rfl⟩ := he
  obtain ⟨e1, e2, e3⟩ := header_eq hh
  change Source e.strict e.sym (w.files e.path) d ok at h
  rw [e1, e2, e3] at h
  obtain ⟨rfl, rfl⟩ := source_unique h hs
  rw [hh, List.prefix_append_right_inj] at hl
  obtain ⟨t, ht⟩ := hl
  have hr : r = entries hash e0.val (ps.take r.length) := by
    have := congrArg (List.take r.length) ht
    rw [List.take_left] at this
    rw [this]
    simp [entries, List.map_take]
  refine ⟨e0.val, ps.take r.length, ps.drop r.length ++ qs, ?_, ?_, ?_⟩
  · rw [hn, ← List.append_assoc, List.take_append_drop]
  · conv => lhs; rw [hr]
  · intro hb' hne o ho
    obtain ⟨h1, h2, h3, h4⟩ := hb hb' hne
    refine ⟨?_, h2, h4 o ho⟩
    rw [hh, List.append_cancel_left_eq] at h3
    have : r.length = ps.length := by rw [h3]; simp [entries]
    rw [this]
    simp [h1]

theorem update_lines (hp : Plain hash) {w : Disk} (hi : Inv hash w) {v : View} {r : Result}
    (hu : w.update hash e = (v, r)) (hw : v.writing = true) : ∃ d ok ps qs, Source e.strict e.sym (w.files e.path) d ok ∧
    names 1 d = ps ++ qs ∧ v = .out (header e ++ entries hash e.val ps) := by
  obtain ⟨d, ok, h⟩ := source_total e.strict e.sym (w.files e.path)
  have ho := update_outcome hp hi h
  rw [hu] at ho
  cases ho with
  | updated => exact ⟨d, ok, _, [], h, (List.append_nil _).symm, rfl⟩
  | unchanged _ _ h => rw [h] at hw; cases hw
  | early _ _ h => rw [h] at hw; cases hw
  | failed _ _ hn => exact ⟨d, ok, _, _, h, hn, rfl⟩

theorem lines_out (ls : List Str) : (View.out ls).lines = ls := by simp [View.lines]

theorem inv_step (hp : Plain hash) {w w' : Disk} (h : Step hash w w') (hi : Inv hash w) : Inv hash w' := by
  cases h with
  | edit p s =>
    intro ls b hdb e he hs d ok hd
    dsimp only at hs hd
    by_cases hpe : e.path = p
    · rw [if_pos hpe] at hs; cases hs
    · rw [if_neg hpe] at hs hd
      exact hi ls b hdb e he hs d ok hd
  | removeOutput =>
    intro ls b hdb e he hs d ok hd
    obtain ⟨val, ps, qs, h1, h2, _⟩ := hi ls b hdb e he hs d ok hd
    exact ⟨val, ps, qs, h1, h2, by intro _ _ o ho; cases ho⟩
  | removeDatabase =>
    intro ls b hdb
    cases hdb
  | @updated e v o hu =>
    obtain ⟨d, ok, h⟩ := source_total e.strict e.sym (w.files e.path)
    have ho := update_outcome hp hi h
    rw [hu] at ho
    cases ho with
    | updated hok _ =>
      rw [lines_out]
      exact inv_lines h (List.append_nil _).symm List.prefix_rfl fun _ _ => ⟨rfl, hok, rfl, by rintro o ⟨⟩; rfl⟩
  | unchanged => exact hi
  | failedEarly => exact hi
  | failed newer hu hw =>
    obtain ⟨d, ok, ps, qs, h, hn, rfl⟩ := update_lines hp hi hu hw
    rw [lines_out]
    exact inv_lines h hn List.prefix_rfl fun h => by cases h
  | crash stale newer out hu hw hl =>
    obtain ⟨d, ok, ps, qs, h, hn, rfl⟩ := update_lines hp hi hu hw
    rw [lines_out] at hl
    exact inv_lines h hn hl fun h => by cases h
  | @crashLate e v o stale out hu =>
    obtain ⟨d, ok, h⟩ := source_total e.strict e.sym (w.files e.path)
    have ho := update_outcome hp hi h
    rw [hu] at ho
    cases ho with
    | updated hok _ =>
      rw [lines_out]
      exact inv_lines h (List.append_nil _).symm List.prefix_rfl fun _ h => by cases h

theorem reachable_inv (hp : Plain hash) {w : Disk} (h : Reachable hash w) : Inv hash w := by
  induction h with
  | init => intro ls b hdb; cases hdb
  | step _ hs ih => exact inv_step hp hs ih

end Verif.InSubst
