import Verif.NameGroup.Parse
/-! # The parser computes what the specification says: the induction -/

namespace Verif.NameGroup

variable (e : Env) (ty : Typed)

/-- A word that is a name. -/
theorem word_runs (w : Word) (hw : w.wf e) {f : Nat} {c : Ctx} {cross sp : Bool}
    {ns : List FName} {n0 : Nat} {fst : Bool} {rest : List Tok} (hs : Soft rest)
    (hf : B (partToks sp w.parts ++ rest) ≤ f) :
    Is (loop e ty f c cross ⟨ns, n0, none, fst⟩ (partToks sp w.parts ++ rest)) none ∧
      wordName e c w = none ∨
    ∃ n g, wordName e c w = some n ∧ B rest ≤ g ∧
      loop e ty f c cross ⟨ns, n0, none, fst⟩ (partToks sp w.parts ++ rest) =
        loop e ty g c cross ⟨ns ++ [(n, false)], 1, none, false⟩ rest := by
  obtain ⟨hw1, hw2, hw3, hw4, hw5⟩ := hw
  have hlen : 1 ≤ w.parts.length := by
    have := written_ne hw3
    cases hp : w.parts with
    | nil => exact absurd hp this
    | cons a b => simp
  have hf' : 4 * w.parts.length + 4 * rest.length + 1 ≤ f := by
    unfold B at hf; rw [List.length_append, partToks_length] at hf; omega
  obtain ⟨q, g, hg, hl⟩ := loop_parts e ty (c := c) (cross := cross) (sp := sp) (ns := ns)
    (n := n0) (fst := fst) hs.1 w.parts f hw4 (written_ne hw3) (Or.inl hw3) (by omega)
  obtain ⟨g, rfl⟩ : ∃ g', g = g' + 1 := ⟨g - 1, by omega⟩
  rw [hl, word_plain e ty hs.2, hw5]
  have h1 := wordProject_is e c w.proj w.text q hw1 hw2
  have hstr : w.str = projText w.proj ++ w.text := rfl
  rw [hstr]
  cases hp : atMostOne c.proj w.proj with
  | none =>
    rw [hp] at h1
    left
    refine ⟨fails_bind h1, ?_⟩
    unfold wordName; rw [hp]; rfl
  | some p =>
    rw [hp] at h1
    have h1' : wordProject e c (projText w.proj ++ w.text) q = .ok _ := h1
    rw [h1']
    have h2 := wordAppend_is e c ns w p hw2 hp
    cases hn : wordName e c w with
    | none =>
      rw [hn] at h2
      left
      refine ⟨?_, rfl⟩
      show Fails (wordAppend e c ns p w.text (lastIdx isSep w.text) >>= _)
      exact fails_bind h2
    | some n =>
      rw [hn] at h2
      have h2' : wordAppend e c ns p w.text (lastIdx isSep w.text) = .ok _ := h2
      right
      refine ⟨n, g, rfl, by unfold B; omega, ?_⟩
      show (wordAppend e c ns p w.text (lastIdx isSep w.text) >>= _) = _
      rw [h2']
      rfl

/-- A prefix of a group. -/
theorem pre_runs (p : Pre) (hw : p.wf e) {f : Nat} {c : Ctx} {cross sp : Bool}
    {ns : List FName} {n0 : Nat} {fst : Bool} {rest : List Tok}
    (hf : B (partToks sp p.parts ++ .lc false :: rest) ≤ f) :
    (preCtx e c p = none ∧
      Fails (loop e ty f c cross ⟨ns, n0, none, fst⟩ (partToks sp p.parts ++ .lc false :: rest))) ∨
    ∃ c1 g, preCtx e c p = some c1 ∧ B rest ≤ g ∧
      loop e ty f c cross ⟨ns, n0, none, fst⟩ (partToks sp p.parts ++ .lc false :: rest) =
        (trailer e ty (g + 1) c1 cross ns rest >>= fun y =>
          loop e ty (g + 1) c cross ⟨y.1, y.2.1, none, false⟩ y.2.2) := by
  obtain ⟨hw1, hw2, hw3, hw4, hw5, hw6, hw7⟩ := hw
  have hlen : 1 ≤ p.parts.length := by
    cases hp : p.parts with
    | nil => exact absurd hp hw5
    | cons a b => simp
  have hf' : 4 * p.parts.length + 4 * rest.length + 5 ≤ f := by
    unfold B at hf
    rw [List.length_append, partToks_length, List.length_cons] at hf
    omega
  obtain ⟨q, g, hg, hl⟩ := loop_parts e ty (c := c) (cross := cross) (sp := sp) (ns := ns)
    (n := n0) (fst := fst) (rest := .lc false :: rest) rfl p.parts f hw6 hw5 (Or.inr rfl) (by omega)
  obtain ⟨g, rfl⟩ : ∃ g', g = g' + 2 := ⟨g - 2, by omega⟩
  rw [hl, word_group e ty, hw7]
  have hnp : '%' ∉ p.rest := by
    unfold Pre.rest
    intro h
    rcases List.mem_append.mp h with h | h
    · cases hd : p.dir with
      | none => rw [hd] at h; cases h
      | some d =>
        rw [hd] at h
        rcases List.mem_append.mp h with h | h
        · exact hw3 d hd h
        · exact absurd h (by decide)
    · cases ht : p.type with
      | none => rw [ht] at h; cases h
      | some t => rw [ht] at h; exact (hw4 t ht).2.1 h
  have h1 := wordProject_is e c p.proj p.rest q hw1 hnp
  have hstr : p.str = projText p.proj ++ p.rest := rfl
  rw [hstr]
  cases hp : atMostOne c.proj p.proj with
  | none =>
    rw [hp] at h1
    left
    refine ⟨?_, fails_bind h1⟩
    unfold preCtx; rw [hp]; rfl
  | some j =>
    rw [hp] at h1
    have h1' : wordProject e c (projText p.proj ++ p.rest) q = .ok _ := h1
    rw [h1']
    have h2 := wordPrefix_is e c p j hw4 hw2 hp
    cases hn : preCtx e c p with
    | none =>
      rw [hn] at h2
      left
      refine ⟨rfl, ?_⟩
      show Fails (wordPrefix e c j p.rest (lastIdx isSep p.rest) >>= _)
      exact fails_bind h2
    | some c1 =>
      rw [hn] at h2
      have h2' : wordPrefix e c j p.rest (lastIdx isSep p.rest) = .ok c1 := h2
      right
      refine ⟨c1, g, rfl, by unfold B; omega, ?_⟩
      show (wordPrefix e c j p.rest (lastIdx isSep p.rest) >>= _) = _
      rw [h2']
      rfl

theorem flat_one (n : Name) : flat [.single n] = [(n, false)] := rfl

theorem valNames_some (es : List Elem) (b : Bool) : valNames (valOf (some es)) b = flat es := by
  cases b <;> rfl

/-- An expansion outside of a pair. -/
theorem exp_runs (v : Option (List Elem)) {f : Nat} {c : Ctx} {cross sp : Bool} {st : St}
    {rest : List Tok} (hc : st.cc = none) (hs : Soft rest)
    (hf : B (.exp sp (valOf v) :: rest) ≤ f) :
    Runs e ty f c cross st (.exp sp (valOf v) :: rest) rest (Item.exp v).side
      ((Item.exp v).den e c) := by
  obtain ⟨g, rfl⟩ : ∃ g, f = g + 1 := ⟨f - 1, by unfold B at hf; omega⟩
  have hg : B rest ≤ g := by unfold B at hf ⊢; simp at hf; omega
  have hst : ∀ x : St, x.cc = none → x = ⟨x.ns, x.count, none, x.first⟩ := by
    intro x hx; cases x; cases hx; rfl
  cases v with
  | none =>
    unfold Item.den
    refine ⟨g, st.count, hg, ?_, ?_⟩
    · intro h; unfold Item.side at h; cases h
    · rw [loop_exp e ty hc hs, if_pos (by rfl), hc]
      simp [flat]
  | some es =>
    unfold Item.den
    rw [show (Runs e ty (g + 1) c cross st (.exp sp (valOf (some es)) :: rest) rest
      (Item.exp (some es)).side (insideAll e c es)) = _ from rfl]
    by_cases h0 : es = []
    · subst h0
      refine ⟨g, st.count, hg, ?_, ?_⟩
      · intro h; unfold Item.side at h; cases h
      · rw [loop_exp e ty hc hs, if_neg (by simp [valOf]), if_pos (by rw [valNames_some]; rfl), hc]
        simp [flat]
    · have h1 := splice_is e c es st.ns h0
      have hne : ¬ (valNames (valOf (some es)) (lastPair st.ns) = []) := by
        rw [valNames_some]; intro h; exact h0 (flat_nil.mp h)
      unfold Runs
      rw [loop_exp e ty hc hs, if_neg (by simp [valOf]), if_neg hne, valNames_some]
      cases hi : insideAll e c es with
      | none =>
        rw [hi] at h1
        exact fails_bind h1
      | some r =>
        rw [hi] at h1
        have h1' : splice e c 0 st.ns (flat es) = .ok _ := h1
        refine ⟨g, (flat r).length, hg, fun _ => rfl, ?_⟩
        rw [h1', hc]
        rfl

/-- A pair separator. -/
theorem at_step {f : Nat} {c : Ctx} {cross sp : Bool} {ns ns' : List FName} {a : Name}
    {n n' : Nat} {fst : Bool} {rest : List Tok} (hp : lastPair ns = false)
    (hl : pairLhs c ns n sp = .ok (ns' ++ [(a, false)], n')) (hs : sepNext rest = false) :
    loop e ty (f + 1) c cross ⟨ns, n, none, fst⟩ (.at sp :: rest) =
      loop e ty f c cross ⟨ns' ++ [(a, true)], n', none, false⟩ rest := by
  rw [loop_at e ty rfl]
  unfold atSep
  simp only [hp, Bool.false_eq_true, if_false, hl]
  show ((if sepNext rest = true then _ else _) >>= _) = _
  rw [hs]
  simp only [Bool.false_eq_true, if_false, setPair_append]
  rfl

theorem at_fail {f : Nat} {c : Ctx} {cross sp : Bool} {ns : List FName}
    {n : Nat} {fst : Bool} {rest : List Tok}
    (hl : Fails (pairLhs c ns n sp)) :
    Fails (loop e ty (f + 1) c cross ⟨ns, n, none, fst⟩ (.at sp :: rest)) := by
  rw [loop_at e ty rfl]
  apply fails_bind
  unfold atSep
  split
  · exact ⟨_, rfl⟩
  · exact fails_bind hl

/-- Nothing on the right hand side of a pair. -/
theorem absent_rhs {f : Nat} {c : Ctx} {cross sp : Bool} {ns ns' : List FName} {a : Name}
    {n n' : Nat} {fst : Bool} {rest : List Tok} (hp : lastPair ns = false)
    (hl : pairLhs c ns n sp = .ok (ns' ++ [(a, false)], n')) (hr : Hard rest)
    (hf : B rest ≤ f) :
    match emptyName c with
    | none => Fails (loop e ty (f + 1) c cross ⟨ns, n, none, fst⟩ (.at sp :: rest))
    | some b => ∃ g m, B rest ≤ g ∧
        loop e ty (f + 1) c cross ⟨ns, n, none, fst⟩ (.at sp :: rest) =
          loop e ty g c cross ⟨ns' ++ [(a, true), (b, false)], m, none, false⟩ rest := by
  have hem := emptyName_append c (ns' ++ [(a, true)])
  rcases hr with hr | hr
  · rw [loop_at e ty rfl]
    unfold atSep
    simp only [hp, Bool.false_eq_true, if_false, hl]
    have key : ((Except.ok (ns' ++ [(a, false)], n') : Except Err (List FName × Nat)) >>= fun r =>
        if sepNext rest = true then do
          let x ← appendEmpty c (setPair true r.1)
          Except.ok (x, 0)
        else Except.ok (setPair true r.1, r.2)) =
        (appendEmpty c (ns' ++ [(a, true)]) >>= fun x => Except.ok (x, 0)) := by
      show (if sepNext rest = true then _ else _) = _
      rw [hr]
      simp only [if_true, setPair_append]
    rw [key]
    cases hb : emptyName c with
    | none =>
      rw [hb] at hem
      exact fails_bind (fails_bind hem)
    | some b =>
      rw [hb] at hem
      have hem' : appendEmpty c (ns' ++ [(a, true)]) = .ok _ := hem
      refine ⟨f, 0, hf, ?_⟩
      rw [hem']
      show loop e ty f c cross ⟨ns' ++ [(a, true)] ++ [(b, false)], 0, none, false⟩ rest = _
      simp
  · have hs : sepNext rest = false := by
      rcases hr with ⟨r, rfl⟩ | ⟨r, rfl⟩ <;> rfl
    rw [at_step e ty hp hl hs]
    obtain ⟨g, rfl⟩ : ∃ g, f = g + 1 := ⟨f - 1, by unfold B at hf; omega⟩
    have hfin : loop e ty (g + 1) c cross ⟨ns' ++ [(a, true)], n', none, false⟩ rest =
        (appendEmpty c (ns' ++ [(a, true)]) >>= fun x => .ok (x, rest)) := by
      have hlp : lastPair (ns' ++ [(a, true)]) = true := by simp [lastPair]
      rcases hr with ⟨r, rfl⟩ | ⟨r, rfl⟩ <;> simp [loop, finish, hlp]
    rw [hfin]
    cases hb : emptyName c with
    | none =>
      rw [hb] at hem
      exact fails_bind hem
    | some b =>
      rw [hb] at hem
      have hem' : appendEmpty c (ns' ++ [(a, true)]) = .ok _ := hem
      refine ⟨g + 1, 0, hf, ?_⟩
      rw [hem', loop_end e ty (by simp [lastPair]) hr]
      show (Except.ok _ : Except Err _) = _
      simp

/-- The left hand side of a pair. -/
theorem pairLhs_is {c : Ctx} {ns : List FName} {ls : List Elem} {n : Nat}
    (hn : n = (flat ls).length) :
    (lhsName c ls = none ∧ Fails (pairLhs c (ns ++ flat ls) n false)) ∨
    ∃ a n', lhsName c ls = some a ∧
      pairLhs c (ns ++ flat ls) n false = .ok (ns ++ [(a, false)], n') := by
  subst hn
  unfold pairLhs
  match ls with
  | [] =>
    rw [if_pos (by simp [flat])]
    have h := emptyName_append c (ns ++ flat [])
    cases he : emptyName c with
    | none =>
      rw [he] at h
      left; exact ⟨he, fails_bind h⟩
    | some a =>
      rw [he] at h
      have h' : appendEmpty c (ns ++ flat []) = .ok _ := h
      right
      refine ⟨a, 1, he, ?_⟩
      rw [h']
      simp [flat]
      rfl
  | [.single n] =>
    right
    exact ⟨n, 1, rfl, by simp [flat]⟩
  | .pair a b :: es =>
    left
    refine ⟨rfl, ?_⟩
    rw [if_neg (by simp [flat]), if_pos (by simp [flat])]
    exact ⟨_, rfl⟩
  | .single a :: y :: es =>
    left
    refine ⟨rfl, ?_⟩
    rw [if_neg (by simp [flat]), if_pos (by cases y <;> simp [flat] <;> omega)]
    exact ⟨_, rfl⟩

theorem Item.toks_nosep (cross : Bool) : ∀ (i : Item) (rest : List Tok), i.present = true →
    i.wf e cross → i.side = true → sepNext (i.toks false ++ rest) = false
  | .absent, _, h, _, _ => by cases h
  | .word w, _, _, hw, _ => by
    unfold Item.toks
    unfold Item.wf at hw
    exact partToks_sep (written_ne hw.2.2.1) _ _
  | .exp v, _, _, _, _ => by unfold Item.toks; rfl
  | .group none gs, _, _, _, _ => by unfold Item.toks; rw [Groups.toks_eq]; rfl
  | .group (some p) gs, _, _, hw, _ => by
    unfold Item.toks
    unfold Item.wf at hw
    rw [List.append_assoc]
    exact partToks_sep hw.1.2.2.2.2.1 _ _
  | .pair l r, rest, _, _, h => by unfold Item.side at h; cases h

theorem den_pair (l r : Item) (c : Ctx) :
    (Item.pair l r).den e c =
      (l.den e c).bind fun ls => (lhsName c ls).bind fun a => (r.den e c).bind fun rs =>
        (singles rs).bind fun bs => some (bs.map (Elem.pair a)) := by
  rw [Item.den]
  rfl

theorem toks_absent (sp : Bool) : Item.absent.toks sp = [] := by rw [Item.toks]

theorem den_absent (c : Ctx) :
    Item.absent.den e c = (emptyName c).map fun n => [.single n] := by rw [Item.den]

/-! ## Items, sequences, groups -/

mutual
/-- An item. -/
theorem item_runs : ∀ (i : Item) (cross : Bool), i.wf e cross → i.present = true →
    ∀ (f : Nat) (c : Ctx) (sp : Bool) (ns : List FName) (n : Nat) (fst : Bool) (rest : List Tok),
    lastPair ns = false → Soft rest →
    (i.side = false → Hard rest ∧ (sp = true ∨ n = 0)) →
    B (i.toks sp ++ rest) ≤ f →
    Runs e ty f c cross ⟨ns, n, none, fst⟩ (i.toks sp ++ rest) rest i.side (i.den e c)
  | .absent, _, _, hp => by cases hp
  | .word w, cross, hw, _ => by
    intro f c sp ns n fst rest hl hs _ hf
    unfold Item.wf at hw
    unfold Item.toks at hf ⊢
    unfold Item.den
    rcases word_runs e ty w hw hs hf with ⟨h1, h2⟩ | ⟨m, g, h1, h2, h3⟩
    · rw [h2]; exact h1
    · rw [h1]
      exact ⟨g, 1, h2, fun _ => rfl, h3⟩
  | .exp v, cross, _, _ => by
    intro f c sp ns n fst rest hl hs _ hf
    unfold Item.toks at hf ⊢
    exact exp_runs e ty v rfl hs hf
  | .group none gs, cross, hw, _ => by
    intro f c sp ns n fst rest hl hs _ hf
    unfold Item.wf at hw
    unfold Item.toks at hf ⊢
    unfold Item.den Item.side
    rw [Groups.toks_eq] at hf ⊢
    obtain ⟨g, rfl⟩ : ∃ g, f = g + 2 := ⟨f - 2, by unfold B at hf; simp at hf; omega⟩
    have hg : B (gs.rest ++ rest) ≤ g := by unfold B at hf ⊢; simp at hf ⊢; omega
    have h1 := groups_go gs cross hw g c rest hg
    exact group_runs e ty (st := ⟨ns, n, none, fst⟩) hl hs.2 rfl
      (by unfold B at hg ⊢; simp at hg; omega) h1 (loop_lc e ty rfl)
  | .group (some p) gs, cross, hw, _ => by
    intro f c sp ns n fst rest hl hs _ hf
    unfold Item.wf at hw
    unfold Item.toks at hf ⊢
    unfold Item.den Item.side
    rw [Groups.toks_eq, List.append_assoc, List.cons_append] at hf ⊢
    rcases pre_runs e ty p hw.1 (c := c) (cross := cross) (sp := sp)
      (ns := ns) (n0 := n) (fst := fst) (rest := gs.rest ++ rest) hf with
      ⟨h1, h2⟩ | ⟨c1, g, h1, hg, h2⟩
    · rw [h1]; exact h2
    · rw [h1]
      have h3 := groups_go gs cross hw.2 g c1 rest hg
      exact group_runs e ty (st := ⟨ns, n, none, fst⟩) hl hs.2 rfl
        (by unfold B at hg ⊢; simp at hg; omega) h3 h2
  | .pair l r, cross, hw, _ => by
    intro f c sp ns n fst rest hl hs hh hf
    unfold Item.wf at hw
    obtain ⟨hls, hrs, hlw, hrw⟩ := hw
    obtain ⟨hard, hsp⟩ := hh (by unfold Item.side; rfl)
    unfold Item.toks at hf ⊢
    rw [den_pair]
    -- What follows the left hand side.
    have after : ∀ (f : Nat) (ns' pre : List FName) (a : Name) (m m' : Nat) (fst sp' : Bool),
        lastPair ns' = false → pairLhs c ns' m sp' = .ok (pre ++ [(a, false)], m') →
        B (.at sp' :: (r.toks false ++ rest)) ≤ f →
        (∀ es, ((r.den e c).bind fun rs => (singles rs).bind fun bs => some (bs.map (Elem.pair a))) = some es →
          ∃ g k, B rest ≤ g ∧ loop e ty f c cross ⟨ns', m, none, fst⟩ (.at sp' :: (r.toks false ++ rest)) =
            loop e ty g c cross ⟨pre ++ flat es, k, none, false⟩ rest) ∧
        (((r.den e c).bind fun rs => (singles rs).bind fun bs => some (bs.map (Elem.pair a))) = none →
          Fails (loop e ty f c cross ⟨ns', m, none, fst⟩ (.at sp' :: (r.toks false ++ rest)))) := by
      intro f ns' pre a m m' fst sp' hns' hlhs hf
      obtain ⟨g, rfl⟩ : ∃ g, f = g + 1 := ⟨f - 1, by unfold B at hf; omega⟩
      have hg : B (r.toks false ++ rest) ≤ g := by unfold B at hf ⊢; simp at hf ⊢; omega
      cases hpres : r.present with
      | false =>
        have hr : r = .absent := by cases r <;> first | rfl | cases hpres
        subst hr
        rw [toks_absent, List.nil_append] at hg ⊢
        rw [den_absent]
        have h1 := absent_rhs e ty (f := g) (cross := cross) (fst := fst) hns' hlhs hard hg
        cases he : emptyName c with
        | none =>
          rw [he] at h1
          exact ⟨fun es h => (by cases h), fun _ => h1⟩
        | some b =>
          rw [he] at h1
          obtain ⟨g', k, h2, h3⟩ := h1
          refine ⟨fun es h => ?_, fun h => by cases h⟩
          have : es = [.pair a b] := by cases h; rfl
          subst this
          exact ⟨g', k, h2, h3⟩
      | true =>
        have hsep : sepNext (r.toks false ++ rest) = false := Item.toks_nosep e cross r rest hpres hrw hrs
        rw [at_step e ty hns' hlhs hsep]
        have h1 := rhs_runs r cross hrw hpres hrs g c false pre a m' false rest hs hg
        cases hd : r.den e c with
        | none =>
          rw [hd] at h1
          exact ⟨fun es h => (by cases h), fun _ => h1⟩
        | some rs =>
          rw [hd] at h1
          unfold RunsR at h1
          dsimp only at h1
          simp only [Option.bind_some]
          cases hsi : singles rs with
          | none =>
            rw [hsi] at h1
            exact ⟨fun es h => (by cases h), fun _ => h1⟩
          | some bs =>
            rw [hsi] at h1
            obtain ⟨g', k, h2, h3⟩ := h1
            refine ⟨fun es h => ?_, fun h => by cases h⟩
            have : es = bs.map (Elem.pair a) := by cases h; rfl
            subst this
            exact ⟨g', k, h2, h3⟩
    cases hpres : l.present with
    | false =>
      have hl' : l = .absent := by cases l <;> first | rfl | cases hpres
      subst hl'
      have hls0 : lhsSep sp .absent = sp := rfl
      rw [toks_absent, List.nil_append, hls0] at hf ⊢
      rw [den_absent]
      have hcons : (Tok.at sp :: r.toks false) ++ rest = Tok.at sp :: (r.toks false ++ rest) := rfl
      rw [hcons] at hf ⊢
      have hlhs : pairLhs c ns n sp = (appendEmpty c ns >>= fun x => .ok (x, 1)) := by
        unfold pairLhs
        rw [if_pos (by rcases hsp with h | h <;> simp [h])]
      have hem := emptyName_append c ns
      cases he : emptyName c with
      | none =>
        rw [he] at hem
        obtain ⟨g, rfl⟩ : ∃ g, f = g + 1 := ⟨f - 1, by unfold B at hf; omega⟩
        exact at_fail e ty (by rw [hlhs]; exact fails_bind hem)
      | some a =>
        rw [he] at hem
        have hem' : appendEmpty c ns = .ok (ns ++ [(a, false)]) := hem
        rw [hem'] at hlhs
        obtain ⟨h1, h2⟩ := after f ns ns a n 1 fst sp hl hlhs hf
        have hla : lhsName c [.single a] = some a := rfl
        simp only [Option.map_some, Option.bind_some, hla]
        cases hd : ((r.den e c).bind fun rs => (singles rs).bind fun bs => some (bs.map (Elem.pair a))) with
        | none => exact h2 hd
        | some es =>
          obtain ⟨g', k, h3, h4⟩ := h1 es hd
          exact ⟨g', k, h3, fun h => by (unfold Item.side at h; cases h), h4⟩
    | true =>
      have hlsep : lhsSep sp l = false := by cases l <;> first | rfl | cases hpres
      rw [hlsep] at hf ⊢
      rw [List.append_assoc] at hf ⊢
      have hcons : (Tok.at false :: r.toks false) ++ rest = Tok.at false :: (r.toks false ++ rest) := rfl
      rw [hcons] at hf ⊢
      have h1 := item_runs l cross hlw hpres f c sp ns n fst
        (.at false :: (r.toks false ++ rest)) hl ⟨rfl, rfl⟩
        (by rw [hls]; intro h; cases h) hf
      cases hd : l.den e c with
      | none => rw [hd] at h1; exact h1
      | some ls =>
        rw [hd] at h1
        obtain ⟨g, m, hg, hm, h1⟩ := h1
        simp only [Option.bind_some]
        unfold Runs
        rw [h1]
        rcases pairLhs_is (c := c) (ns := ns) (hm hls) with ⟨h2, h3⟩ | ⟨a, m', h2, h3⟩
        · rw [h2]
          obtain ⟨g', rfl⟩ : ∃ g', g = g' + 1 := ⟨g - 1, by unfold B at hg; omega⟩
          exact at_fail e ty h3
        · rw [h2]
          obtain ⟨h4, h5⟩ := after g (ns ++ flat ls) ns a m m' false false
            (lastPair_append_flat _ _ hl) h3 hg
          simp only [Option.bind_some]
          cases hdd : ((r.den e c).bind fun rs => (singles rs).bind fun bs => some (bs.map (Elem.pair a))) with
          | none => exact h5 hdd
          | some es =>
            obtain ⟨g', k, h6, h7⟩ := h4 es hdd
            exact ⟨g', k, h6, fun h => by (unfold Item.side at h; cases h), h7⟩
/-- The right hand side of a pair. -/
theorem rhs_runs : ∀ (i : Item) (cross : Bool), i.wf e cross → i.present = true →
    i.side = true →
    ∀ (f : Nat) (c : Ctx) (sp : Bool) (pre : List FName) (a : Name) (n : Nat) (fst : Bool)
      (rest : List Tok), Soft rest → B (i.toks sp ++ rest) ≤ f →
    RunsR e ty f c cross pre a n fst (i.toks sp ++ rest) rest (i.den e c)
  | .absent, _, _, hp, _ => by cases hp
  | .pair _ _, _, _, _, hs => by unfold Item.side at hs; cases hs
  | .exp none, _, _, _, hs => by unfold Item.side at hs; cases hs
  | .exp (some []), _, _, _, hs => by unfold Item.side at hs; cases hs
  | .exp (some (.pair _ _ :: _)), _, _, _, hs => by unfold Item.side at hs; cases hs
  | .exp (some (.single _ :: _ :: _)), _, _, _, hs => by unfold Item.side at hs; cases hs
  | .exp (some [.single x]), cross, _, _, _ => by
    intro f c sp pre a n fst rest hs hf
    unfold Item.toks at hf ⊢
    have h := exp_runs e ty (some [.single x]) (c := c) (cross := cross)
      (st := ⟨pre ++ [(a, true)], n, none, fst⟩) rfl hs hf
    unfold Item.den at h ⊢
    cases hi : inside e c x with
    | none =>
      have : insideAll e c [.single x] = none := by simp [insideAll, insideElem, hi]
      rw [this] at h ⊢
      exact h
    | some y =>
      have : insideAll e c [.single x] = some [.single y] := by simp [insideAll, insideElem, hi]
      rw [this] at h ⊢
      obtain ⟨g, m, hg, _, h⟩ := h
      refine ⟨g, m, hg, ?_⟩
      show loop e ty f c cross _ _ = _
      rw [List.cons_append, List.nil_append, h]
      simp [flat]
  | .word w, cross, hw, _, _ => by
    intro f c sp pre a n fst rest hs hf
    unfold Item.wf at hw
    unfold Item.toks at hf ⊢
    unfold Item.den
    rcases word_runs e ty w hw hs hf with
      ⟨h1, h2⟩ | ⟨m, g, h1, h2, h3⟩
    · rw [h2]; exact h1
    · rw [h1]
      refine ⟨g, 1, h2, ?_⟩
      rw [h3]
      simp [flat]
  | .group none gs, cross, hw, _, _ => by
    intro f c sp pre a n fst rest hs hf
    unfold Item.wf at hw
    unfold Item.toks at hf ⊢
    unfold Item.den
    rw [Groups.toks_eq] at hf ⊢
    obtain ⟨g, rfl⟩ : ∃ g, f = g + 2 := ⟨f - 2, by unfold B at hf; simp at hf; omega⟩
    have hg : B (gs.rest ++ rest) ≤ g := by unfold B at hf ⊢; simp at hf ⊢; omega
    have h1 := groups_go gs cross hw g c rest hg
    exact group_runsR e ty hs.2
      (by unfold B at hg ⊢; simp at hg; omega) h1 (fun es h => Groups.den_ok e gs c es h)
      (loop_lc e ty rfl)
  | .group (some p) gs, cross, hw, _, _ => by
    intro f c sp pre a n fst rest hs hf
    unfold Item.wf at hw
    unfold Item.toks at hf ⊢
    unfold Item.den
    rw [Groups.toks_eq, List.append_assoc, List.cons_append] at hf ⊢
    rcases pre_runs e ty p hw.1 (c := c) (cross := cross) (sp := sp)
      (ns := pre ++ [(a, true)]) (n0 := n) (fst := fst) (rest := gs.rest ++ rest) hf with
      ⟨h1, h2⟩ | ⟨c1, g, h1, hg, h2⟩
    · rw [h1]; exact h2
    · rw [h1]
      have h3 := groups_go gs cross hw.2 g c1 rest hg
      exact group_runsR e ty hs.2
        (by unfold B at hg ⊢; simp at hg; omega) h3 (fun es h => Groups.den_ok e gs c1 es h) h2
/-- A sequence. -/
theorem seq_runs : ∀ (s : Seq) (cross : Bool), s.wf e cross →
    ∀ (f : Nat) (c : Ctx) (sp : Bool) (ns : List FName) (n : Nat) (fst : Bool) (rest : List Tok),
    lastPair ns = false → (sp = true ∨ n = 0) → (s = .nil → fst = false) →
    ((∃ r, rest = .rc :: r) ∨ (∃ r, rest = .eos :: r)) →
    B (s.toks sp ++ rest) ≤ f →
    Runs e ty f c cross ⟨ns, n, none, fst⟩ (s.toks sp ++ rest) rest false (s.den e c)
  | .nil, cross, _ => by
    intro f c sp ns n fst rest hl _ hfst _ hf
    unfold Seq.toks at hf ⊢
    unfold Seq.den
    rw [hfst rfl]
    refine ⟨f, n, hf, fun h => (by cases h), ?_⟩
    simp [flat]
  | .cons i s, cross, hw => by
    intro f c sp ns n fst rest hl hsp _ hr hf
    unfold Seq.wf at hw
    unfold Seq.toks at hf ⊢
    rw [List.append_assoc] at hf ⊢
    have hhard := Seq.toks_hard e s cross rest hw.2.2 hr
    have h1 := item_runs i cross hw.2.1 hw.1 f c sp ns n fst (s.toks true ++ rest) hl
      hhard.soft (fun _ => ⟨hhard, hsp⟩) hf
    unfold Seq.den
    cases hd : i.den e c with
    | none => rw [hd] at h1; exact h1
    | some x =>
      rw [hd] at h1
      obtain ⟨g, m, hg, _, h1⟩ := h1
      have h2 := seq_runs s cross hw.2.2 g c true (ns ++ flat x) m false rest
        (lastPair_append_flat _ _ hl) (Or.inl rfl) (fun _ => rfl) hr hg
      simp only [Option.bind_eq_bind, Option.bind_some]
      unfold Runs
      rw [h1]
      cases hd2 : s.den e c with
      | none => rw [hd2] at h2; exact h2
      | some y =>
        rw [hd2] at h2
        obtain ⟨g', m', hg', _, h2⟩ := h2
        refine ⟨g', m', hg', fun h => (by cases h), ?_⟩
        rw [h2, flat_append, List.append_assoc]
/-- The inside of a group. -/
theorem body_is : ∀ (s : Seq), s.wf e false →
    ∀ (f : Nat) (c : Ctx) (ns : List FName) (rest : List Tok),
    lastPair ns = false → B (s.toks false ++ .rc :: rest) ≤ f →
    Is (loop e ty f c false ⟨ns, 0, none, true⟩ (s.toks false ++ .rc :: rest))
      ((s.body e c).map fun es => (ns ++ flat es, .rc :: rest))
  | .nil, _ => by
    intro f c ns rest hl hf
    unfold Seq.toks at hf ⊢
    unfold Seq.body
    obtain ⟨g, rfl⟩ : ∃ g, f = g + 1 := ⟨f - 1, by unfold B at hf; omega⟩
    rw [List.nil_append, loop_empty e ty]
    have hem := emptyName_append c ns
    cases he : emptyName c with
    | none => rw [he] at hem; exact fails_bind hem
    | some a =>
      rw [he] at hem
      have hem' : appendEmpty c ns = .ok (ns ++ [(a, false)]) := hem
      rw [hem']
      show finish c (ns ++ [(a, false)]) (.rc :: rest) = _
      unfold finish
      rw [if_neg (by simp [lastPair])]
      rfl
  | .cons i s, hw => by
    intro f c ns rest hl hf
    have h1 := seq_runs (.cons i s) false hw f c false ns 0 true (.rc :: rest) hl (Or.inr rfl)
      (fun h => by cases h) (Or.inl ⟨rest, rfl⟩) hf
    have hb : (Seq.cons i s).body e c = (Seq.cons i s).den e c := by
      rw [Seq.body, Seq.den]
    rw [hb]
    cases hd : (Seq.cons i s).den e c with
    | none => rw [hd] at h1; exact h1
    | some es =>
      rw [hd] at h1
      obtain ⟨g, m, hg, _, h1⟩ := h1
      obtain ⟨g', rfl⟩ : ∃ g', g = g' + 1 := ⟨g - 1, by unfold B at hg; omega⟩
      rw [h1]
      exact loop_end e ty (lastPair_append_flat _ _ hl) (Or.inl ⟨rest, rfl⟩)
/-- Adjacent groups. -/
theorem groups_go : ∀ (gs : Groups) (cross : Bool), gs.wf e cross →
    ∀ (f : Nat) (c : Ctx) (rest : List Tok), B (gs.rest ++ rest) ≤ f →
    RunsG e ty f c cross (gs.rest ++ rest) rest (gs.den e c)
  | .one s, cross, hw => by
    intro f c rest hf
    unfold Groups.wf at hw
    unfold Groups.rest at hf ⊢
    rw [List.append_assoc] at hf ⊢
    have hcons : [Tok.rc] ++ rest = Tok.rc :: rest := rfl
    rw [hcons] at hf ⊢
    have h1 := body_is s hw f c [] rest lastPair_nil hf
    unfold Groups.den
    unfold RunsG first
    cases hb : s.body e c with
    | none => rw [hb] at h1; exact fails_bind h1
    | some es =>
      rw [hb] at h1
      have h1' : loop e ty f c false ⟨[], 0, none, true⟩ (s.toks false ++ .rc :: rest) =
        .ok ([] ++ flat es, .rc :: rest) := h1
      refine ⟨f, by unfold B at hf ⊢; simp at hf; omega, ?_⟩
      rw [h1']
      rfl
  | .more gs s, cross, hw => by
    intro f c rest hf
    unfold Groups.wf at hw
    obtain ⟨hcr, hgw, hsi, hsw⟩ := hw
    unfold Groups.rest at hf ⊢
    rw [List.append_assoc] at hf ⊢
    have hcons : Tok.lc false :: (s.toks false ++ [.rc]) ++ rest =
        Tok.lc false :: (s.toks false ++ .rc :: rest) := by simp
    rw [hcons] at hf ⊢
    have h1 := groups_go gs cross hgw f c (.lc false :: (s.toks false ++ .rc :: rest)) hf
    unfold Groups.den
    cases hd : gs.den e c with
    | none => rw [hd] at h1; exact h1
    | some es =>
      rw [hd] at h1
      obtain ⟨g, hg, h1⟩ := h1
      obtain ⟨g', rfl⟩ : ∃ g', g = g' + 1 := ⟨g - 1, by unfold B at hg; omega⟩
      have hg' : B (s.toks false ++ .rc :: rest) ≤ g' := by
        unfold B at hg ⊢; simp at hg ⊢; omega
      have hgr : B rest ≤ g' := by unfold B at hg' ⊢; simp at hg'; omega
      obtain ⟨ls, hls⟩ := noPairs_singles (Groups.simple_den e gs c es hsi hd)
      have hes := singles_ok hls
      simp only [Option.bind_eq_bind, Option.bind_some, hls]
      unfold RunsG
      rw [h1, crosses, hcr]
      rw [if_pos ⟨rfl, rfl⟩]
      cases ls with
      | nil =>
        have hes' : es = [] := hes
        subst hes'
        have h2 := body_is s hsw g' Ctx.none [] rest lastPair_nil hg'
        simp only [flat, List.length_nil, if_true, List.tail_cons]
        cases hb : s.body e Ctx.none with
        | none => rw [hb] at h2; exact fails_bind h2
        | some x =>
          rw [hb] at h2
          have h2' : loop e ty g' Ctx.none false ⟨[], 0, none, true⟩ (s.toks false ++ .rc :: rest) =
            .ok _ := h2
          refine ⟨g', hgr, ?_⟩
          rw [h2']
          rfl
      | cons l ls =>
        have hne : ¬ ((flat es).length = 0) := by
          rw [hes]; simp [flat]
        simp only [hne, if_false, List.tail_cons]
        have h2 := replay_is (p := fun c r ts => loop e ty g' c false ⟨r, 0, none, true⟩ ts)
          (ts := s.toks false ++ .rc :: rest) (rest := rest) (body := fun c => s.body e c)
          (fun c r hr => body_is s hsw g' c r rest hr hg')
          (l :: ls) [] (s.toks false ++ .rc :: rest) lastPair_nil (fun h => by cases h)
        rw [hes, flat_singles]
        cases hcat : concatAll (fun n => (crossCtx n).bind fun c => s.body e c) (l :: ls) with
        | none =>
          rw [hcat] at h2
          exact fails_bind h2
        | some y =>
          rw [hcat] at h2
          have h2' : replay (fun c r ts => loop e ty g' c false ⟨r, 0, none, true⟩ ts)
            (s.toks false ++ .rc :: rest) ((l :: ls).map fun n => (n, false)) []
            (s.toks false ++ .rc :: rest) = .ok _ := h2
          refine ⟨g', hgr, ?_⟩
          rw [h2']
          rfl
end

end Verif.NameGroup
