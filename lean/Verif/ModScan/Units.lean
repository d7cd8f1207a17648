import Verif.ModScan.Scan

/-! # Modules of a translation unit: what declarations make -/

namespace Verif.ModScan

open CcLex (Tok Kind Str)

/-! ## Imports -/

/-- All of them, one by one. -/
def collect (l : List Import) : List Import := l.foldl (fun is i => addTo i is) []

theorem collect_snoc (l : List Import) (i : Import) : collect (l ++ [i]) = addTo i (collect l) := by
  simp [collect]

theorem snoc_ind {α : Type} {P : List α → Prop} (h0 : P []) (h1 : ∀ l a, P l → P (l ++ [a])) :
    ∀ l, P l := by
  intro l
  generalize hn : l.length = n
  induction n generalizing l with
  | zero => rw [List.length_eq_zero_iff.1 hn]; exact h0
  | succ n ih =>
    rcases List.eq_nil_or_concat l with rfl | ⟨a, b, rfl⟩
    · cases hn
    · rw [List.concat_eq_append] at hn ⊢
      simp only [List.length_append, List.length_singleton] at hn
      exact h1 a b (ih a (by omega))

theorem mem_firsts (l : List Str) (a : Str) : a ∈ firsts l ↔ a ∈ l := by
  induction l with
  | nil => simp [firsts]
  | cons b l ih =>
    simp only [firsts, List.mem_cons, List.mem_filter, ih, ne_eq, decide_not, Bool.not_eq_true',
      decide_eq_false_iff_not]
    by_cases h : a = b <;> simp [h]

theorem firsts_nodup (l : List Str) : (firsts l).Nodup := by
  induction l with
  | nil => exact List.Pairwise.nil
  | cons b l ih =>
    refine List.Pairwise.cons ?_ (List.Pairwise.filter _ ih)
    intro x hx
    simp only [List.mem_filter, ne_eq, decide_not, Bool.not_eq_true', decide_eq_false_iff_not] at hx
    exact fun h => hx.2 h.symm

theorem firsts_snoc (l : List Str) (a : Str) :
    firsts (l ++ [a]) = if a ∈ l then firsts l else firsts l ++ [a] := by
  induction l with
  | nil => simp [firsts]
  | cons b l ih =>
    simp only [List.cons_append, firsts, ih, List.mem_cons]
    by_cases h : a = b
    · subst h
      by_cases h2 : a ∈ l <;> simp [h2]
    · by_cases h2 : a ∈ l <;> simp [h, h2]

theorem addTo_names (i : Import) (is : List Import) :
    (addTo i is).map (·.name) =
      if i.name ∈ is.map (·.name) then is.map (·.name) else is.map (·.name) ++ [i.name] := by
  induction is with
  | nil => simp [addTo]
  | cons j is ih =>
    simp only [addTo]
    by_cases h : j.name = i.name
    · simp [h]
    · have h' : ¬ i.name = j.name := fun e => h e.symm
      simp only [if_neg h, List.map_cons, ih, List.mem_cons, h', false_or]
      split <;> simp

theorem collect_names (l : List Import) : (collect l).map (·.name) = firsts (l.map (·.name)) := by
  induction l using snoc_ind with
  | h0 => rfl
  | h1 l i ih =>
    rw [collect_snoc, addTo_names, ih, List.map_append, List.map_singleton, firsts_snoc]
    simp only [mem_firsts]

theorem collect_nodup (l : List Import) : ((collect l).map (·.name)).Nodup := by
  rw [collect_names]; exact firsts_nodup _

theorem mem_addTo (i : Import) (is : List Import) (hn : (is.map (·.name)).Nodup) (x : Import)
    (hx : x ∈ addTo i is) :
    (x ∈ is ∧ x.name ≠ i.name) ∨ (x.name = i.name ∧
      ((∃ y ∈ is, y.name = i.name ∧ y.part = x.part ∧ x.exported = (y.exported || i.exported)) ∨
        ((∀ y ∈ is, y.name ≠ i.name) ∧ x = i))) := by
  induction is with
  | nil =>
    simp only [addTo, List.mem_singleton] at hx
    subst hx
    exact Or.inr ⟨rfl, Or.inr ⟨by simp, rfl⟩⟩
  | cons j is ih =>
    simp only [List.map_cons, List.nodup_cons, List.mem_map, not_exists, not_and] at hn
    simp only [addTo] at hx
    by_cases h : j.name = i.name
    · rw [if_pos h] at hx
      rcases List.mem_cons.1 hx with rfl | hx
      · exact Or.inr ⟨h, Or.inl ⟨j, by simp, h, rfl, rfl⟩⟩
      · exact Or.inl ⟨by simp [hx], fun e => hn.1 x hx (e.trans h.symm)⟩
    · rw [if_neg h] at hx
      rcases List.mem_cons.1 hx with rfl | hx
      · exact Or.inl ⟨by simp, h⟩
      · rcases ih hn.2 hx with ⟨h1, h2⟩ | ⟨h1, ⟨y, h2, h3⟩ | ⟨h2, h3⟩⟩
        · exact Or.inl ⟨by simp [h1], h2⟩
        · exact Or.inr ⟨h1, Or.inl ⟨y, by simp [h2], h3⟩⟩
        · exact Or.inr ⟨h1, Or.inr ⟨List.forall_mem_cons.2 ⟨h, h2⟩, h3⟩⟩

theorem collect_kinds (l : List Import) : ∀ i ∈ collect l, ∃ j ∈ l, j.name = i.name ∧ j.part = i.part := by
  induction l using snoc_ind with
  | h0 => intro i hi; cases hi
  | h1 l i ih =>
    intro x hx
    rw [collect_snoc] at hx
    rcases mem_addTo i _ (collect_nodup l) x hx with ⟨h1, _⟩ | ⟨h1, ⟨y, h2, h3, h4, _⟩ | ⟨_, rfl⟩⟩
    · obtain ⟨j, hj, h⟩ := ih x h1
      exact ⟨j, by simp [hj], h⟩
    · obtain ⟨j, hj, h5, h6⟩ := ih y h2
      exact ⟨j, by simp [hj], by rw [h5, h3, h1], by rw [h6, h4]⟩
    · exact ⟨x, by simp, rfl, rfl⟩

theorem collect_exported (l : List Import) : ∀ i ∈ collect l,
    (i.exported = true ↔ ∃ j ∈ l, j.name = i.name ∧ j.exported = true) := by
  induction l using snoc_ind with
  | h0 => intro i hi; cases hi
  | h1 l i ih =>
    intro x hx
    rw [collect_snoc] at hx
    rcases mem_addTo i _ (collect_nodup l) x hx with ⟨h1, h2⟩ | ⟨h1, ⟨y, h2, h3, h4, h5⟩ | ⟨h2, rfl⟩⟩
    · rw [ih x h1]
      constructor
      · rintro ⟨j, hj, h⟩; exact ⟨j, by simp [hj], h⟩
      · rintro ⟨j, hj, h3, h4⟩
        rcases List.mem_append.1 hj with hj | hj
        · exact ⟨j, hj, h3, h4⟩
        · simp only [List.mem_singleton] at hj
          subst hj; exact absurd h3.symm h2
    · rw [h5, Bool.or_eq_true, ih y h2, h3]
      constructor
      · rintro (⟨j, hj, h6, h7⟩ | h)
        · exact ⟨j, by simp [hj], by rw [h6, h1], h7⟩
        · exact ⟨i, by simp, h1.symm, h⟩
      · rintro ⟨j, hj, h6, h7⟩
        rcases List.mem_append.1 hj with hj | hj
        · exact Or.inl ⟨j, hj, by rw [h6, h1], h7⟩
        · simp only [List.mem_singleton] at hj
          subst hj; exact Or.inr h7
    · constructor
      · intro h; exact ⟨x, by simp, rfl, h⟩
      · rintro ⟨j, hj, h3, h4⟩
        rcases List.mem_append.1 hj with hj | hj
        · have : j.name ∈ (collect l).map (·.name) := by
            rw [collect_names, mem_firsts]; exact List.mem_map_of_mem hj
          obtain ⟨y, hy, h5⟩ := List.mem_map.1 this
          exact absurd (h5.trans h3) (h2 y hy)
        · simp only [List.mem_singleton] at hj
          subst hj; exact h4

/-- Imports are known from these. -/
theorem imports_unique (l a b : List Import)
    (hl : ∀ i ∈ l, ∀ j ∈ l, i.name = j.name → i.part = j.part)
    (ha : a.map (·.name) = b.map (·.name))
    (ka : ∀ i ∈ a, ∃ j ∈ l, j.name = i.name ∧ j.part = i.part)
    (kb : ∀ i ∈ b, ∃ j ∈ l, j.name = i.name ∧ j.part = i.part)
    (ea : ∀ i ∈ a, i.exported = true ↔ ∃ j ∈ l, j.name = i.name ∧ j.exported = true)
    (eb : ∀ i ∈ b, i.exported = true ↔ ∃ j ∈ l, j.name = i.name ∧ j.exported = true) : a = b := by
  induction a generalizing b with
  | nil => cases b with | nil => rfl | cons => cases ha
  | cons x a ih =>
    cases b with
    | nil => cases ha
    | cons y b =>
      simp only [List.map_cons, List.cons.injEq] at ha
      have ka' := List.forall_mem_cons.1 ka
      have kb' := List.forall_mem_cons.1 kb
      have ea' := List.forall_mem_cons.1 ea
      have eb' := List.forall_mem_cons.1 eb
      rw [ih b ha.2 ka'.2 kb'.2 ea'.2 eb'.2]
      congr 1
      obtain ⟨j, h1, h2, h3⟩ := ka'.1
      obtain ⟨k, h4, h5, h6⟩ := kb'.1
      have hp : x.part = y.part := by
        rw [← h3, ← h6]; exact hl j h1 k h4 (by rw [h2, h5, ha.1])
      have he : x.exported = y.exported := by
        have := ea'.1.trans ((show _ ↔ _ by rw [ha.1]).trans eb'.1.symm)
        cases hx : x.exported <;> cases hy : y.exported <;> simp_all
      cases x; cases y
      simp_all

/-! ## Units -/

/-- Names are as they are if they are made of identifiers. -/
def Decl.Good : Decl → Prop
  | .module _ b _ => b ≠ [] ∧ ':' ∉ b
  | .import _ n => ':' ∉ n
  | _ => True

/-- There is a module declaration. -/
def Has (ds : List Decl) : Prop := ∃ d ∈ ds, d.isModule

theorem baseOf_has {a b : List Decl} (h : Has a) : baseOf (a ++ b) = baseOf a := by
  induction a with
  | nil => obtain ⟨_, h, _⟩ := h; cases h
  | cons d a ih =>
    cases d with
    | module => rfl
    | _ =>
      simp only [List.cons_append, baseOf]
      refine ih ?_
      obtain ⟨x, hx, hm⟩ := h
      rcases List.mem_cons.1 hx with rfl | hx
      · cases hm
      · exact ⟨x, hx, hm⟩

theorem baseOf_none {a b : List Decl} (h : ¬ Has a) : baseOf (a ++ b) = baseOf b := by
  induction a with
  | nil => rfl
  | cons d a ih =>
    have h2 : ¬ Has a := fun ⟨x, hx, hm⟩ => h ⟨x, by simp [hx], hm⟩
    cases d with
    | module => exact absurd ⟨_, List.mem_cons_self .., trivial⟩ h
    | _ => exact ih h2

/-- Partitions are only imported after the module has been declared. -/
def Purview (ds : List Decl) : Prop := ∀ a ex p b, ds = a ++ .importPart ex p :: b → Has a

theorem purview_left {a b : List Decl} (h : Purview (a ++ b)) : Purview a := by
  intro x ex p y hx
  exact h x ex p (y ++ b) (by rw [hx]; simp)

theorem imported_none {ds : List Decl} (hp : Purview ds) (hn : ¬ Has ds) (b b' : Str) :
    ds.filterMap (Decl.imported b) = ds.filterMap (Decl.imported b') := by
  have : ∀ d ∈ ds, Decl.imported b d = Decl.imported b' d := by
    intro d hd
    cases d with
    | importPart ex p =>
      obtain ⟨x, y, rfl⟩ := List.append_of_mem hd
      obtain ⟨z, hz, hm⟩ := hp x ex p y rfl
      exact absurd ⟨z, by simp [hz], hm⟩ hn
    | _ => rfl
  clear hp hn
  induction ds with
  | nil => rfl
  | cons d ds ih =>
    simp only [List.filterMap_cons, this d (by simp), ih fun x hx => this x (by simp [hx])]

/-- What has been found is what the declarations say. -/
structure Rel (ds : List Decl) (st : St) : Prop where
  unit : (st.info.type = .nonModular ∧ st.info.name = [] ∧ ¬ Has ds) ∨
    ∃ a ex base part b, ds = a ++ .module ex base part :: b ∧ ¬ Has a ∧ ¬ Has b ∧
      st.info.type = unitType ex part.isSome ∧ st.info.name = fullName base part
  marker : st.marker = true ↔ Decl.marker ∈ ds
  purview : Purview ds
  imports : st.info.imports = collect (ds.filterMap (Decl.imported (baseOf ds)))

theorem not_has_snoc {ds : List Decl} {d : Decl} (h : ¬ Has ds) (hd : ¬ d.isModule) :
    ¬ Has (ds ++ [d]) := by
  rintro ⟨x, hx, hm⟩
  rcases List.mem_append.1 hx with hx | hx
  · exact h ⟨x, hx, hm⟩
  · simp only [List.mem_singleton] at hx
    subst hx; exact hd hm

theorem unit_snoc {ds : List Decl} {i : Info} {d : Decl} (hd : ¬ d.isModule)
    (h : (i.type = .nonModular ∧ i.name = [] ∧ ¬ Has ds) ∨
      ∃ a ex base part b, ds = a ++ .module ex base part :: b ∧ ¬ Has a ∧ ¬ Has b ∧
        i.type = unitType ex part.isSome ∧ i.name = fullName base part) :
    (i.type = .nonModular ∧ i.name = [] ∧ ¬ Has (ds ++ [d])) ∨
      ∃ a ex base part b, ds ++ [d] = a ++ .module ex base part :: b ∧ ¬ Has a ∧ ¬ Has b ∧
        i.type = unitType ex part.isSome ∧ i.name = fullName base part := by
  rcases h with ⟨h1, h2, h3⟩ | ⟨a, ex, base, part, b, rfl, h2, h3, h4, h5⟩
  · exact Or.inl ⟨h1, h2, not_has_snoc h3 hd⟩
  · exact Or.inr ⟨a, ex, base, part, b ++ [d], by simp, h2, not_has_snoc h3 hd, h4, h5⟩

theorem purview_snoc {ds : List Decl} {d : Decl} (h : Purview ds)
    (hd : ∀ ex p, d = .importPart ex p → Has ds) : Purview (ds ++ [d]) := by
  intro a ex p b hx
  rcases List.eq_nil_or_concat b with rfl | ⟨b', y, rfl⟩
  · have := List.append_inj' hx rfl
    obtain ⟨rfl, h2⟩ := this
    simp only [List.cons.injEq, and_true] at h2
    exact hd ex p h2
  · rw [List.concat_eq_append] at hx
    have := List.append_inj' (show ds ++ [d] = (a ++ .importPart ex p :: b') ++ [y] by
      rw [hx]; simp) rfl
    exact h a ex p b' this.1

theorem imports_snoc {ds : List Decl} {d : Decl} (hp : Purview ds) (hd : ¬ d.isModule)
    (hpart : ∀ ex p, d = .importPart ex p → Has ds) :
    (ds ++ [d]).filterMap (Decl.imported (baseOf (ds ++ [d]))) =
      ds.filterMap (Decl.imported (baseOf ds)) ++ (Decl.imported (baseOf ds) d).toList := by
  rw [List.filterMap_append]
  by_cases h : Has ds
  · rw [baseOf_has h]
    congr 1
  · rw [imported_none hp h _ (baseOf ds)]
    congr 1
    cases d with
    | importPart ex p => exact absurd (hpart ex p rfl) h
    | module => exact absurd trivial hd
    | _ => rfl

theorem own_rel {ds : List Decl} {st : St} (h : Rel ds st) (hg : ∀ d ∈ ds, d.Good) :
    (¬ Has ds ∧ ownModule st = none) ∨ (Has ds ∧ ownModule st = some (baseOf ds)) := by
  rcases h.unit with ⟨h1, _, h3⟩ | ⟨a, ex, base, part, b, rfl, h2, h3, h4, h5⟩
  · exact Or.inl ⟨h3, by simp [ownModule, h1]⟩
  · refine Or.inr ⟨⟨_, List.mem_append_right _ (List.mem_cons_self ..), trivial⟩, ?_⟩
    have hb : baseOf (a ++ .module ex base part :: b) = base := by rw [baseOf_none h2]; rfl
    have hc : ':' ∉ base := (hg (.module ex base part) (by simp)).2
    have htw : ∀ p : Str, (base ++ ':' :: p).takeWhile (· ≠ ':') = base := by
      intro p
      rw [List.takeWhile_append_of_pos]
      · simp
      · intro x hx
        simp only [ne_eq, decide_not, Bool.not_eq_true', decide_eq_false_iff_not]
        rintro rfl; exact hc hx
    rw [hb]
    cases part with
    | none => cases ex <;> simp [ownModule, h4, h5, unitType, fullName]
    | some p =>
      simp only [fullName] at h5
      cases ex <;> simp only [ownModule, h4, h5, unitType, Option.isSome_some, htw]

theorem adds_snoc (st : St) (ds : List Decl) (d : Decl) :
    st.adds (ds ++ [d]) = (st.adds ds).bind fun s => s.add d := by
  induction ds generalizing st with
  | nil =>
    simp only [List.nil_append, St.adds, Option.bind_some]
    cases st.add d <;> rfl
  | cons e ds ih =>
    simp only [List.cons_append, St.adds]
    cases st.add e with
    | none => rfl
    | some s => exact ih s

theorem rel_nil : Rel [] {} := by
  refine ⟨Or.inl ⟨rfl, rfl, ?_⟩, ?_, ?_, rfl⟩
  · rintro ⟨_, h, _⟩; cases h
  · constructor
    · intro h; cases h
    · intro h; cases h
  · intro a ex p b h
    exact absurd h.symm (by simp)

theorem rel_snoc {ds : List Decl} {st st' : St} {d : Decl} (hr : Rel ds st)
    (hg : ∀ x ∈ ds ++ [d], x.Good) (h : st.add d = some st') : Rel (ds ++ [d]) st' := by
  have hgs : ∀ x ∈ ds, x.Good := fun x hx => hg x (by simp [hx])
  cases d with
  | marker =>
    simp only [St.add, Option.some.injEq] at h
    subst h
    have hd : ¬ (Decl.marker).isModule := fun h => h
    have hpart : ∀ ex p, Decl.marker = .importPart ex p → Has ds := fun _ _ h => by cases h
    refine ⟨unit_snoc hd hr.unit, by simp, purview_snoc hr.purview hpart, ?_⟩
    rw [imports_snoc hr.purview hd hpart]
    simpa [Decl.imported] using hr.imports
  | header =>
    simp only [St.add, Option.some.injEq] at h
    subst h
    have hd : ¬ (Decl.header).isModule := fun h => h
    have hpart : ∀ ex p, Decl.header = .importPart ex p → Has ds := fun _ _ h => by cases h
    refine ⟨unit_snoc hd hr.unit, by simp [hr.marker], purview_snoc hr.purview hpart, ?_⟩
    rw [imports_snoc hr.purview hd hpart]
    simpa [Decl.imported] using hr.imports
  | «import» ex n =>
    simp only [St.add, Option.some.injEq] at h
    subst h
    have hd : ¬ (Decl.import ex n).isModule := fun h => h
    have hpart : ∀ ex' p, Decl.import ex n = .importPart ex' p → Has ds := fun _ _ h => by cases h
    refine ⟨unit_snoc hd hr.unit, by simp [addImport, hr.marker], purview_snoc hr.purview hpart, ?_⟩
    rw [imports_snoc hr.purview hd hpart]
    simp only [Decl.imported, Option.toList_some, collect_snoc, addImport, hr.imports]
  | importPart ex p =>
    simp only [St.add] at h
    rcases own_rel hr hgs with ⟨_, hx⟩ | ⟨hh, hx⟩
    · simp [hx] at h
    · simp only [hx, Option.map_some, Option.some.injEq] at h
      subst h
      have hd : ¬ (Decl.importPart ex p).isModule := fun h => h
      refine ⟨unit_snoc hd hr.unit, by simp [addImport, hr.marker],
        purview_snoc hr.purview fun _ _ _ => hh, ?_⟩
      rw [imports_snoc hr.purview hd fun _ _ _ => hh]
      simp only [Decl.imported, Option.toList_some, collect_snoc, addImport, hr.imports]
  | module ex base part =>
    simp only [St.add, addModule] at h
    by_cases hn : st.info.name ≠ []
    · rw [if_pos hn] at h; cases h
    · rw [if_neg hn] at h
      simp only [Option.some.injEq] at h
      subst h
      have hn' : st.info.name = [] := Classical.not_not.1 hn
      have hh : ¬ Has ds := by
        rcases hr.unit with ⟨_, _, h3⟩ | ⟨a, ex', base', part', b, rfl, _, _, _, h5⟩
        · exact h3
        · exfalso
          have hb := (hgs (.module ex' base' part') (by simp)).1
          rw [hn'] at h5
          cases part' with
          | none => exact hb h5.symm
          | some q => exact absurd h5.symm (by simp [fullName])
      refine ⟨Or.inr ⟨ds, ex, base, part, [], rfl, hh, ?_, ?_, rfl⟩, ?_, ?_, ?_⟩
      · rintro ⟨_, h, _⟩; cases h
      · cases part <;> cases ex <;> rfl
      · simp [hr.marker]
      · exact purview_snoc hr.purview fun _ _ h => by cases h
      · rw [List.filterMap_append, imported_none hr.purview hh _ (baseOf ds)]
        rw [show List.filterMap (Decl.imported (baseOf (ds ++ [Decl.module ex base part])))
          [Decl.module ex base part] = [] from rfl, List.append_nil]
        exact hr.imports

theorem adds_rel (ds : List Decl) : ∀ st, (∀ d ∈ ds, d.Good) → St.adds {} ds = some st →
    Rel ds st := by
  induction ds using snoc_ind with
  | h0 => intro st _ h; cases h; exact rel_nil
  | h1 ds d ih =>
    intro st hg h
    rw [adds_snoc] at h
    obtain ⟨s, h1, h2⟩ := Option.bind_eq_some_iff.1 h
    exact rel_snoc (ih s (fun x hx => hg x (by simp [hx])) h1) hg h2

/-- At most one module is declared. -/
def Once (ds : List Decl) : Prop := ∀ a d b, ds = a ++ d :: b → d.isModule → ¬ Has a

theorem adds_some (ds : List Decl) (hg : ∀ d ∈ ds, d.Good) (ho : Once ds) (hp : Purview ds) :
    ∃ st, St.adds {} ds = some st := by
  induction ds using snoc_ind with
  | h0 => exact ⟨_, rfl⟩
  | h1 ds d ih =>
    have hgs : ∀ x ∈ ds, x.Good := fun x hx => hg x (by simp [hx])
    obtain ⟨s, hs⟩ := ih hgs (fun a x b hx => ho a x (b ++ [d]) (by rw [hx]; simp))
      (purview_left hp)
    have hr := adds_rel ds s hgs hs
    rw [adds_snoc, hs, Option.bind_some]
    cases d with
    | marker => exact ⟨_, rfl⟩
    | header => exact ⟨_, rfl⟩
    | «import» ex n => exact ⟨_, rfl⟩
    | importPart ex p =>
      have hh : Has ds := hp ds ex p [] rfl
      rcases own_rel hr hgs with ⟨h, _⟩ | ⟨_, hx⟩
      · exact absurd hh h
      · exact ⟨_, by simp only [St.add, hx, Option.map_some]; rfl⟩
    | module ex base part =>
      have hh : ¬ Has ds := ho ds _ [] rfl trivial
      rcases hr.unit with ⟨_, h, _⟩ | ⟨a, ex', base', part', b, rfl, _⟩
      · simp [St.add, addModule, h]
      · exact absurd ⟨_, List.mem_append_right _ (List.mem_cons_self ..), trivial⟩ hh

theorem not_has_iff (ds : List Decl) : ¬ Has ds ↔ ∀ d ∈ ds, ¬ d.isModule := by
  constructor
  · intro h d hd hm; exact h ⟨d, hd, hm⟩
  · rintro h ⟨d, hd, hm⟩; exact h d hd hm

theorem has_split {a b c : List Decl} {d e : Decl} (h : a ++ d :: b = c ++ e :: [])
    (hm : d.isModule) : Has (c ++ [e]) := ⟨d, by
      have : d ∈ c ++ e :: [] := by rw [← h]; simp
      exact this, hm⟩

/-- The imports that are of the same name are of the same kind. -/
theorem parts_consistent (ds : List Decl) (hg : ∀ d ∈ ds, d.Good) (base : Str) :
    ∀ i ∈ ds.filterMap (Decl.imported base), ∀ j ∈ ds.filterMap (Decl.imported base),
      i.name = j.name → i.part = j.part := by
  have key : ∀ i ∈ ds.filterMap (Decl.imported base), (i.part = true ↔ ':' ∈ i.name) := by
    intro i hi
    obtain ⟨d, hd, h⟩ := List.mem_filterMap.1 hi
    cases d with
    | «import» ex n =>
      simp only [Decl.imported, Option.some.injEq] at h
      subst h
      have : ':' ∉ n := hg _ hd
      simp [this]
    | importPart ex p =>
      simp only [Decl.imported, Option.some.injEq] at h
      subst h
      simp
    | _ => cases h
  intro i hi j hj h
  have h1 := key i hi
  have h2 := key j hj
  rw [h] at h1
  cases hx : i.part <;> cases hy : j.part <;> simp_all

theorem makes_iff (ds : List Decl) (hg : ∀ d ∈ ds, d.Good) (u : Info) :
    Makes ds u ↔ ∃ st, St.adds {} ds = some st ∧ st.info = u ∧
      ¬ (st.marker = true ∧ st.info.name = []) := by
  constructor
  · intro hm
    have hp : Purview ds := hm.purview
    have ho : Once ds := by
      intro a d b h hd
      rcases hm.unit with ⟨_, _, h3⟩ | ⟨a', ex, base, part, b', h1, h2, h3, _⟩
      · exact absurd hd (h3 d (by rw [h]; simp))
      · rintro ⟨x, hx, hxm⟩
        rw [h] at h1
        rcases List.append_eq_append_iff.1 h1 with ⟨c, rfl, hc⟩ | ⟨c, rfl, hc⟩
        · exact h2 x (by simp [hx]) hxm
        · cases c with
          | nil =>
            simp only [List.append_nil] at hx
            exact h2 x hx hxm
          | cons y c =>
            simp only [List.cons_append, List.cons.injEq] at hc
            exact h3 d (by rw [hc.2]; simp) hd
    obtain ⟨st, hs⟩ := adds_some ds hg ho hp
    have hr := adds_rel ds st hg hs
    have hi : st.info.imports = u.imports := by
      rw [hr.imports]
      exact imports_unique _ _ _ (parts_consistent ds hg _)
        (by rw [collect_names]; exact hm.names.symm) (collect_kinds _) hm.kinds
        (collect_exported _) hm.exported
    have htn : st.info.type = u.type ∧ st.info.name = u.name := by
      rcases hm.unit with ⟨h1, h2, h3⟩ | ⟨a, ex, base, part, b, h1, h2, h3, h4, h5⟩
      · rcases hr.unit with ⟨g1, g2, _⟩ | ⟨a', ex', base', part', b', g1, _⟩
        · exact ⟨g1.trans h1.symm, g2.trans h2.symm⟩
        · exact absurd trivial (h3 (.module ex' base' part') (by rw [g1]; simp))
      · rcases hr.unit with ⟨_, _, g3⟩ | ⟨a', ex', base', part', b', g1, g2, g3, g4, g5⟩
        · exact absurd ⟨.module ex base part, by rw [h1]; simp, trivial⟩ g3
        · have hb : baseOf ds = base := by
            rw [h1, baseOf_none ((not_has_iff a).2 h2)]; rfl
          rw [h1] at g1
          have : (.module ex base part : Decl) = .module ex' base' part' := by
            rcases List.append_eq_append_iff.1 g1 with ⟨c, hc, hc'⟩ | ⟨c, hc, hc'⟩
            · cases c with
              | nil => simp only [List.nil_append, List.cons.injEq] at hc'; exact hc'.1
              | cons y c =>
                simp only [List.cons_append, List.cons.injEq] at hc'
                obtain ⟨rfl, _⟩ := hc'
                exact absurd ⟨.module ex base part, by rw [hc]; simp, trivial⟩ g2
            · cases c with
              | nil => simp only [List.nil_append, List.cons.injEq] at hc'; exact hc'.1.symm
              | cons y c =>
                simp only [List.cons_append, List.cons.injEq] at hc'
                obtain ⟨rfl, _⟩ := hc'
                exact absurd trivial (h2 (.module ex' base' part') (by rw [hc]; simp))
          cases this
          exact ⟨g4.trans h4.symm, g5.trans h5.symm⟩
    refine ⟨st, hs, ?_, ?_⟩
    · obtain ⟨i, m⟩ := st
      obtain ⟨t, n, is⟩ := i
      obtain ⟨t', n', is'⟩ := u
      simp only at hi htn
      rw [htn.1, htn.2, hi]
    · rintro ⟨h1, h2⟩
      obtain ⟨d, hd, hdm⟩ := hm.marker (hr.marker.1 h1)
      rcases hr.unit with ⟨_, _, g3⟩ | ⟨a', ex', base', part', b', g1, g2, g3, g4, g5⟩
      · exact g3 ⟨d, hd, hdm⟩
      · rw [h2] at g5
        have hb := (hg (.module ex' base' part') (by rw [g1]; simp)).1
        cases part' with
        | none => exact hb g5.symm
        | some q => exact absurd g5.symm (by simp [fullName])
  · rintro ⟨st, hs, rfl, hmk⟩
    have hr := adds_rel ds st hg hs
    refine ⟨?_, ?_, hr.purview, ?_, ?_, ?_⟩
    · rcases hr.unit with ⟨h1, h2, h3⟩ | ⟨a, ex, base, part, b, h1, h2, h3, h4⟩
      · exact Or.inl ⟨h1, h2, (not_has_iff _).1 h3⟩
      · exact Or.inr ⟨a, ex, base, part, b, h1, (not_has_iff _).1 h2, (not_has_iff _).1 h3, h4⟩
    · intro hm
      rcases hr.unit with ⟨h1, h2, h3⟩ | ⟨a, ex, base, part, b, h1, _⟩
      · exact absurd ⟨hr.marker.2 hm, h2⟩ hmk
      · exact ⟨.module ex base part, by rw [h1]; simp, trivial⟩
    · rw [hr.imports, collect_names]
    · rw [hr.imports]; exact collect_kinds _
    · rw [hr.imports]; exact collect_exported _

/-! ## Names -/

theorem dotted_word {l : List Tok} {n : Str} (h : Dotted l n) (hw : Words l) :
    n ≠ [] ∧ ∀ c ∈ n, CcLex.isWord c = true ∨ c = '.' := by
  induction h with
  | @one t h1 h2 =>
    obtain ⟨h3, h4⟩ := hw t (by simp) h1
    exact ⟨h3, fun c hc => Or.inl (h4 c hc)⟩
  | @more t d ts n h1 h2 h3 h4 h5 ih =>
    obtain ⟨h6, h7⟩ := hw t (by simp) h1
    obtain ⟨_, h9⟩ := ih fun x hx => hw x (by simp [hx])
    refine ⟨by simp, ?_⟩
    intro c hc
    rcases List.mem_append.1 hc with hc | hc
    · exact Or.inl (h7 c hc)
    · rcases List.mem_cons.1 hc with rfl | hc
      · exact Or.inr rfl
      · exact h9 c hc

/-- A name that is made of identifiers and dots. -/
def Nice (n : Str) : Prop := n ≠ [] ∧ ∀ c ∈ n, CcLex.isWord c = true ∨ c = '.'

theorem nice_colon {n : Str} (h : Nice n) : ':' ∉ n := by
  intro hc
  rcases h.2 ':' hc with h | h
  · exact absurd h (by decide)
  · exact absurd h (by decide)

/-- All names are. -/
def Decl.Nice : Decl → Prop
  | .module _ b p => ModScan.Nice b ∧ ∀ q, p = some q → ModScan.Nice q
  | .import _ n => ModScan.Nice n
  | .importPart _ p => ModScan.Nice p
  | _ => True

theorem Decl.Nice.good {d : Decl} (h : d.Nice) : d.Good := by
  cases d with
  | module ex b p => exact ⟨h.1.1, nice_colon h.1⟩
  | «import» ex n => exact nice_colon h
  | _ => trivial

theorem declares_nice {c : Compiler} {l : List Tok} {d : Decl} (h : Declares c l d)
    (hw : Words l) : d.Nice := by
  have sub : ∀ {a : List Tok}, (∀ x ∈ a, x ∈ l) → Words a := fun ha x hx => hw x (ha x hx)
  cases h with
  | marker => trivial
  | module h1 h2 h3 => exact ⟨dotted_word h2 (sub fun x hx => by simp [hx]), fun q h => by cases h⟩
  | part h1 h2 h3 h4 h5 h6 =>
    refine ⟨dotted_word h2 (sub fun x hx => by simp [hx]), ?_⟩
    intro q hq
    cases hq
    exact dotted_word h5 (sub fun x hx => by simp [hx])
  | «import» h1 h2 h3 => exact dotted_word h2 (sub fun x hx => by simp [hx])
  | importPart h1 h2 h3 h4 h5 => exact dotted_word h4 (sub fun x hx => by simp [hx])
  | quoted => trivial
  | angled => trivial

theorem scan_nice {c : Compiler} {d : Nat} {ts : List Tok} {ds : List Decl} (h : Scan c d ts ds)
    (hw : Words ts) : ∀ x ∈ ds, x.Nice := by
  induction h with
  | nil => intro x hx; cases hx
  | enter _ _ ih => exact ih fun x hx => hw x (by simp [hx])
  | leave _ _ ih => exact ih fun x hx => hw x (by simp [hx])
  | stray => intro x hx; cases hx
  | decl h1 _ ih =>
    intro x hx
    rcases List.mem_cons.1 hx with rfl | hx
    · exact declares_nice h1 fun y hy => hw y (by simp [hy])
    · exact ih (fun y hy => hw y (by simp [hy])) x hx
  | other _ _ _ _ ih => exact ih fun x hx => hw x (by simp [hx])

end Verif.ModScan
