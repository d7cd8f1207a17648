import Verif.NameGroup.Splice
/-! # The parser computes what the specification says -/

namespace Verif.NameGroup

/-! ## What the specification gives -/

theorem accept_ok {n m : Name} (h : accept n = some m) : m.ok = true := by
  unfold accept at h
  split at h
  · cases h; assumption
  · cases h

theorem emptyName_ok {c : Ctx} {m : Name} (h : emptyName c = some m) : m.ok = true :=
  accept_ok h

theorem inside_ok {e : Env} {c : Ctx} {n m : Name} (h : inside e c n = some m) :
    m.ok = true := by
  unfold inside at h
  cases hp : atMostOne c.proj n.proj with
  | none => rw [hp] at h; cases h
  | some p =>
  cases hd : insideDir e c n with
  | none => rw [hp, hd] at h; cases h
  | some d =>
  cases ht : insideType c n with
  | none => rw [hp, hd, ht] at h; cases h
  | some t =>
    rw [hp, hd, ht] at h
    exact accept_ok h

theorem wordName_ok {e : Env} {c : Ctx} {w : Word} {m : Name}
    (h : wordName e c w = some m) : m.ok = true := by
  unfold wordName at h
  cases hp : atMostOne c.proj w.proj with
  | none => rw [hp] at h; cases h
  | some p =>
    rw [hp] at h
    simp only [Option.bind_eq_bind, Option.bind_some] at h
    split at h
    · rename_i d _
      cases hd : inDir e c.dir d with
      | none => rw [hd] at h; cases h
      | some x => rw [hd] at h; exact accept_ok h
    · exact accept_ok h

/-- All the elements are acceptable. -/
abbrev AllOk (es : List Elem) : Prop := ∀ x ∈ es, Elem.ok x = true

theorem AllOk.append {a b : List Elem} (ha : AllOk a) (hb : AllOk b) : AllOk (a ++ b) := by
  intro x hx
  rcases List.mem_append.mp hx with h | h
  · exact ha x h
  · exact hb x h

theorem insideAll_ok {e : Env} {c : Ctx} : ∀ {es r : List Elem},
    insideAll e c es = some r → AllOk r := by
  intro es
  induction es with
  | nil => intro r h; cases h; intro x hx; cases hx
  | cons y es ih =>
    intro r h
    unfold insideAll at h
    cases hy : insideElem e c y with
    | none => rw [hy] at h; cases h
    | some y' =>
      cases hr : insideAll e c es with
      | none => rw [hy, hr] at h; cases h
      | some r' =>
        rw [hy, hr] at h
        have h' : r = y' :: r' := by cases h; rfl
        subst h'
        intro x hx
        rcases List.mem_cons.mp hx with h | h
        · subst h
          cases y with
          | single n =>
            cases hn : inside e c n with
            | none => simp [insideElem, hn] at hy
            | some m =>
              have : x = .single m := by simp [insideElem, hn] at hy; exact hy.symm
              subst this
              exact inside_ok hn
          | pair a b =>
            cases ha : inside e c a with
            | none => simp [insideElem, ha] at hy
            | some a' =>
              cases hb : inside e c b with
              | none => simp [insideElem, ha, hb] at hy
              | some b' =>
                have : x = .pair a' b' := by simp [insideElem, ha, hb] at hy; exact hy.symm
                subst this
                simp [Elem.ok, inside_ok ha, inside_ok hb]
        · exact ih hr x h

theorem concatAll_ok {α : Type} {f : α → Option (List Elem)} : ∀ {as : List α} {r},
    (∀ a es, f a = some es → AllOk es) → concatAll f as = some r → AllOk r := by
  intro as
  induction as with
  | nil => intro r _ h; cases h; intro x hx; cases hx
  | cons a as ih =>
    intro r hf h
    unfold concatAll at h
    cases ha : f a with
    | none => rw [ha] at h; cases h
    | some x =>
      cases hr : concatAll f as with
      | none => rw [ha, hr] at h; cases h
      | some y =>
        rw [ha, hr] at h
        have h' : r = x ++ y := by cases h; rfl
        subst h'
        exact (hf a x ha).append (ih hf hr)

theorem singles_ok : ∀ {es : List Elem} {ns : List Name}, singles es = some ns →
    es = ns.map Elem.single := by
  intro es
  induction es with
  | nil => intro ns h; cases h; rfl
  | cons x es ih =>
    intro ns h
    cases x with
    | pair a b => cases h
    | single n =>
      unfold singles at h
      cases hs : singles es with
      | none => rw [hs] at h; cases h
      | some ms =>
        rw [hs] at h
        cases h
        rw [ih hs]; rfl

theorem single_ok {o : Option Name} {es : List Elem}
    (ho : ∀ m, o = some m → m.ok = true)
    (h : (o.map fun n => [Elem.single n]) = some es) : AllOk es := by
  cases o with
  | none => cases h
  | some m =>
    cases h
    intro x hx
    rcases List.mem_cons.mp hx with h | h
    · subst h; exact ho m rfl
    · cases h

mutual
theorem Item.den_ok (e : Env) : ∀ (i : Item) (c : Ctx) es, i.den e c = some es → AllOk es
  | .absent, c, es, h => by
    unfold Item.den at h; exact single_ok (fun m hm => emptyName_ok hm) h
  | .word w, c, es, h => by
    unfold Item.den at h; exact single_ok (fun m hm => wordName_ok hm) h
  | .exp none, c, es, h => by
    unfold Item.den at h; cases h; intro x hx; cases hx
  | .exp (some v), c, es, h => by
    unfold Item.den at h; exact insideAll_ok h
  | .group none gs, c, es, h => by
    unfold Item.den at h; exact Groups.den_ok e gs c es h
  | .group (some p) gs, c, es, h => by
    unfold Item.den at h
    cases hp : preCtx e c p with
    | none => rw [hp] at h; cases h
    | some c' => rw [hp] at h; exact Groups.den_ok e gs c' es h
  | .pair l r, c, es, h => by
    unfold Item.den at h
    cases hl : l.den e c with
    | none => rw [hl] at h; cases h
    | some ls =>
      cases hr : r.den e c with
      | none =>
        rw [hl, hr] at h
        cases ha : lhsName c ls with
        | none => rw [Option.bind_eq_bind, Option.bind_some, ha] at h; cases h
        | some a => rw [Option.bind_eq_bind, Option.bind_some, ha] at h; cases h
      | some rs =>
        rw [hl, hr] at h
        have hlo := Item.den_ok e l c ls hl
        have hro := Item.den_ok e r c rs hr
        have key : ∀ a, a.ok = true → ((singles rs).bind fun bs => some (bs.map (Elem.pair a))) = some es →
            AllOk es := by
          intro a ha h
          cases hs : singles rs with
          | none => rw [hs] at h; cases h
          | some bs =>
            rw [hs] at h
            have h' : es = bs.map (Elem.pair a) := by cases h; rfl
            subst h'
            have hrs := singles_ok hs
            intro x hx
            obtain ⟨b, hb, rfl⟩ := List.mem_map.mp hx
            have : Elem.ok (.single b) = true := hro _ (by rw [hrs]; exact List.mem_map.mpr ⟨b, hb, rfl⟩)
            have this' : b.ok = true := this
            simp [Elem.ok, ha, this']
        simp only [Option.bind_eq_bind, Option.bind_some] at h
        cases ha : lhsName c ls with
        | none => rw [ha] at h; cases h
        | some a =>
          rw [ha] at h
          refine key a ?_ h
          unfold lhsName at ha
          split at ha
          · exact emptyName_ok ha
          · rename_i n
            cases ha
            exact hlo (.single a) List.mem_cons_self
          · cases ha
theorem Seq.den_ok (e : Env) : ∀ (s : Seq) (c : Ctx) es, s.den e c = some es → AllOk es
  | .nil, c, es, h => by unfold Seq.den at h; cases h; intro x hx; cases hx
  | .cons i s, c, es, h => by
    unfold Seq.den at h
    cases hi : i.den e c with
    | none => rw [hi] at h; cases h
    | some x =>
      cases hs : s.den e c with
      | none => rw [hi, hs] at h; cases h
      | some y =>
        rw [hi, hs] at h
        have h' : es = x ++ y := by cases h; rfl
        subst h'
        exact (Item.den_ok e i c x hi).append (Seq.den_ok e s c y hs)
theorem Seq.body_ok (e : Env) : ∀ (s : Seq) (c : Ctx) es, s.body e c = some es → AllOk es
  | .nil, c, es, h => by
    unfold Seq.body at h; exact single_ok (fun m hm => emptyName_ok hm) h
  | .cons i s, c, es, h => by
    unfold Seq.body at h
    cases hi : i.den e c with
    | none => rw [hi] at h; cases h
    | some x =>
      cases hs : s.den e c with
      | none => rw [hi, hs] at h; cases h
      | some y =>
        rw [hi, hs] at h
        have h' : es = x ++ y := by cases h; rfl
        subst h'
        exact (Item.den_ok e i c x hi).append (Seq.den_ok e s c y hs)
theorem Groups.den_ok (e : Env) : ∀ (gs : Groups) (c : Ctx) es, gs.den e c = some es → AllOk es
  | .one s, c, es, h => by unfold Groups.den at h; exact Seq.body_ok e s c es h
  | .more gs s, c, es, h => by
    unfold Groups.den at h
    cases hg : gs.den e c with
    | none => rw [hg] at h; cases h
    | some x =>
      rw [hg] at h
      simp only [Option.bind_eq_bind, Option.bind_some] at h
      cases hs : singles x with
      | none => rw [hs] at h; cases h
      | some ls =>
        rw [hs] at h
        simp only [Option.bind_some] at h
        split at h
        · cases hb : s.body e Ctx.none with
          | none => rw [hb] at h; cases h
          | some b =>
            rw [hb] at h
            cases h; intro x hx; cases hx
        · apply concatAll_ok _ h
          intro n es' h'
          cases hc : crossCtx n with
          | none => rw [hc] at h'; cases h'
          | some c' =>
            rw [hc] at h'
            exact Seq.body_ok e s c' es' h'
end

/-! ## No pairs where none are written -/

theorem noPairs_append {a b : List Elem} : noPairs (a ++ b) = (noPairs a && noPairs b) := by
  induction a with
  | nil => simp [noPairs]
  | cons x a ih => cases x <;> simp [noPairs, ih]

theorem noPairs_singles : ∀ {es : List Elem}, noPairs es = true → ∃ ns, singles es = some ns := by
  intro es
  induction es with
  | nil => intro _; exact ⟨[], rfl⟩
  | cons x es ih =>
    intro h
    cases x with
    | pair a b => cases h
    | single n =>
      obtain ⟨ns, hns⟩ := ih h
      exact ⟨n :: ns, by simp [singles, hns]⟩

theorem insideAll_noPairs {e : Env} {c : Ctx} : ∀ {es r : List Elem},
    noPairs es = true → insideAll e c es = some r → noPairs r = true := by
  intro es
  induction es with
  | nil => intro r _ h; cases h; rfl
  | cons y es ih =>
    intro r hn h
    unfold insideAll at h
    cases y with
    | pair a b => cases hn
    | single n =>
      cases hi : inside e c n with
      | none => simp [insideElem, hi] at h
      | some m =>
        cases hr : insideAll e c es with
        | none => simp [insideElem, hi, hr] at h
        | some r' =>
          have h' : r = .single m :: r' := by
            simp [insideElem, hi, hr] at h; exact h.symm
          subst h'
          show noPairs r' = true
          exact ih hn hr

theorem concatAll_noPairs {α : Type} {f : α → Option (List Elem)} : ∀ {as : List α} {r},
    (∀ a es, f a = some es → noPairs es = true) → concatAll f as = some r → noPairs r = true := by
  intro as
  induction as with
  | nil => intro r _ h; cases h; rfl
  | cons a as ih =>
    intro r hf h
    unfold concatAll at h
    cases ha : f a with
    | none => rw [ha] at h; cases h
    | some x =>
      cases hr : concatAll f as with
      | none => rw [ha, hr] at h; cases h
      | some y =>
        rw [ha, hr] at h
        have h' : r = x ++ y := by cases h; rfl
        subst h'
        rw [noPairs_append, hf a x ha, ih hf hr]; rfl

theorem single_noPairs {o : Option Name} {es : List Elem}
    (h : (o.map fun n => [Elem.single n]) = some es) : noPairs es = true := by
  cases o with
  | none => cases h
  | some m => cases h; rfl

mutual
theorem Item.simple_den (e : Env) : ∀ (i : Item) (c : Ctx) es, i.simple = true →
    i.den e c = some es → noPairs es = true
  | .absent, c, es, _, h => by unfold Item.den at h; exact single_noPairs h
  | .word w, c, es, _, h => by unfold Item.den at h; exact single_noPairs h
  | .exp none, c, es, _, h => by unfold Item.den at h; cases h; rfl
  | .exp (some v), c, es, hs, h => by
    unfold Item.den at h
    unfold Item.simple at hs
    exact insideAll_noPairs hs h
  | .group none gs, c, es, hs, h => by
    unfold Item.den at h
    unfold Item.simple at hs
    exact Groups.simple_den e gs c es hs h
  | .group (some p) gs, c, es, hs, h => by
    unfold Item.den at h
    unfold Item.simple at hs
    cases hp : preCtx e c p with
    | none => rw [hp] at h; cases h
    | some c' => rw [hp] at h; exact Groups.simple_den e gs c' es hs h
  | .pair l r, c, es, hs, h => by unfold Item.simple at hs; cases hs
theorem Seq.simple_den (e : Env) : ∀ (s : Seq) (c : Ctx) es, s.simple = true →
    s.den e c = some es → noPairs es = true
  | .nil, c, es, _, h => by unfold Seq.den at h; cases h; rfl
  | .cons i s, c, es, hsi, h => by
    unfold Seq.simple at hsi
    obtain ⟨h1, h2⟩ := Bool.and_eq_true_iff.mp hsi
    unfold Seq.den at h
    cases hi : i.den e c with
    | none => rw [hi] at h; cases h
    | some x =>
      cases hs : s.den e c with
      | none => rw [hi, hs] at h; cases h
      | some y =>
        rw [hi, hs] at h
        have h' : es = x ++ y := by cases h; rfl
        subst h'
        rw [noPairs_append, Item.simple_den e i c x h1 hi, Seq.simple_den e s c y h2 hs]; rfl
theorem Seq.simple_body (e : Env) : ∀ (s : Seq) (c : Ctx) es, s.simple = true →
    s.body e c = some es → noPairs es = true
  | .nil, c, es, _, h => by unfold Seq.body at h; exact single_noPairs h
  | .cons i s, c, es, hsi, h => by
    unfold Seq.simple at hsi
    obtain ⟨h1, h2⟩ := Bool.and_eq_true_iff.mp hsi
    unfold Seq.body at h
    cases hi : i.den e c with
    | none => rw [hi] at h; cases h
    | some x =>
      cases hs : s.den e c with
      | none => rw [hi, hs] at h; cases h
      | some y =>
        rw [hi, hs] at h
        have h' : es = x ++ y := by cases h; rfl
        subst h'
        rw [noPairs_append, Item.simple_den e i c x h1 hi, Seq.simple_den e s c y h2 hs]; rfl
theorem Groups.simple_den (e : Env) : ∀ (gs : Groups) (c : Ctx) es, gs.simple = true →
    gs.den e c = some es → noPairs es = true
  | .one s, c, es, hs, h => by
    unfold Groups.den at h
    unfold Groups.simple at hs
    exact Seq.simple_body e s c es hs h
  | .more gs s, c, es, hsi, h => by
    unfold Groups.simple at hsi
    obtain ⟨h1, h2⟩ := Bool.and_eq_true_iff.mp hsi
    unfold Groups.den at h
    cases hg : gs.den e c with
    | none => rw [hg] at h; cases h
    | some x =>
      rw [hg] at h
      simp only [Option.bind_eq_bind, Option.bind_some] at h
      cases hs : singles x with
      | none => rw [hs] at h; cases h
      | some ls =>
        rw [hs] at h
        simp only [Option.bind_some] at h
        split at h
        · cases hb : s.body e Ctx.none with
          | none => rw [hb] at h; cases h
          | some b => rw [hb] at h; cases h; rfl
        · apply concatAll_noPairs _ h
          intro n es' h'
          cases hc : crossCtx n with
          | none => rw [hc] at h'; cases h'
          | some c' =>
            rw [hc] at h'
            exact Seq.simple_body e s c' es' h2 h'
end

end Verif.NameGroup
