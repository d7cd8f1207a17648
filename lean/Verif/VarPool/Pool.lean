import Verif.VarPool.Lemmas

namespace Verif.VarPool

/-! ## The map -/

theorem lookup_cons (e : Name × Var) (m : Pool) (k : Name) :
    lookup (e :: m) k = if e.1 = k then some e.2 else lookup m k := by
  unfold lookup
  rw [List.find?_cons]
  by_cases h : e.1 = k
  · simp [h]
  · have : (e.1 == k) = false := by simpa using h
    rw [this, if_neg h]

theorem lookup_append_new {m : Pool} {n : Name} (x : Var) (k : Name) (h : lookup m n = none) :
    lookup (m ++ [(n, x)]) k = if k = n then some x else lookup m k := by
  induction m with
  | nil =>
    simp only [List.nil_append, lookup_cons]
    by_cases e : k = n
    · simp [e]
    · simp [e, Ne.symm e]
  | cons e m ih =>
    rw [lookup_cons] at h
    by_cases e1 : e.1 = n
    · simp [e1] at h
    · rw [if_neg e1] at h
      rw [List.cons_append, lookup_cons, lookup_cons, ih h]
      by_cases e2 : k = n
      · subst e2
        simp [e1]
      · simp [e2]

theorem lookup_assign (m : Pool) (n k : Name) (x : Var) :
    lookup (assign m n x) k = if k = n then (lookup m n).map (fun _ => x) else lookup m k := by
  induction m with
  | nil => simp [assign, lookup]
  | cons e m ih =>
    have : assign (e :: m) n x = (if e.1 == n then (e.1, x) else e) :: assign m n x := rfl
    rw [this, lookup_cons, lookup_cons, lookup_cons, ih]
    by_cases h : e.1 = n
    · by_cases h2 : k = n
      · subst h2
        simp [h]
      · have : n ≠ k := Ne.symm h2
        simp [h, h2, this]
    · by_cases h2 : k = n
      · subst h2
        simp [h]
      · simp [h, h2]

theorem lookup_retro {ov : Name → Bool} {p : Pat} {after : List Pat} {m m' : Pool}
    (h : retro ov p after m = .ok m') (k : Name) :
    (lookup m k = none → lookup m' k = none) ∧
    ∀ var, lookup m k = some var → ∃ var', lookup m' k = some var' ∧
      (applies p after k = false → var' = var) ∧
      (applies p after k = true → update (ov k) var (p.type.getD none) p.vis p.ovr = .ok var') := by
  induction m generalizing m' with
  | nil =>
    simp [retro] at h
    subst h
    simp [lookup]
  | cons e m ih =>
    obtain ⟨n, x⟩ := e
    simp only [retro, bind, Except.bind] at h
    split at h
    · simp at h
    · rename_i x' hx'
      unfold retroVar at hx'
      split at h
      · simp at h
      · rename_i m2 hm2
        simp at h
        subst h
        have ih := ih hm2
        simp only [lookup_cons]
        by_cases e : n = k
        · subst e
          simp only [if_true]
          refine ⟨by simp, fun var hv => ⟨x', rfl, ?_, ?_⟩⟩
          · intro ha
            simp [ha] at hx'
            simp at hv
            rw [← hx', hv]
          · intro ha
            simp [ha] at hx'
            simp at hv
            rw [← hv]
            exact hx'
        · simp only [if_neg e]
          exact ih

/-! ## Updates -/

theorem update_inv {ov : Bool} {var var' : Var} {t : Option Ty} {v : Option Nat}
    {o : Option Bool} (h : update ov var t v o = .ok var') :
    (t = none → var'.type = var.type) ∧
    (∀ ty, t = some ty → var'.type = some ty ∧ (var.type = none ∨ var.type = some ty)) ∧
    (v = none → var'.vis = var.vis) ∧
    (∀ g, v = some g → var'.vis = g ∧ var.vis ≤ g) ∧ ¬ (o = some false ∧ ov = true) := by
  unfold update at h
  split at h
  · simp at h
  · rename_i h1
    split at h
    · simp at h
    · rename_i h2
      split at h
      · simp at h
      · rename_i h3
        simp at h
        subst h
        refine ⟨?_, ?_, ?_, ?_, h1⟩
        · rintro rfl; simp
        · rintro ty rfl
          simp at h2
          refine ⟨by simp, ?_⟩
          by_cases e : var.type = some ty
          · exact .inr e
          · exact .inl (h2 e)
        · rintro rfl; simp
        · rintro g rfl
          simp at h3
          refine ⟨by simp, ?_⟩
          by_cases e : g = var.vis
          · omega
          · have := h3 e; omega

theorem update_kept {ov : Bool} {var var' : Var} {t : Option Ty} {v : Option Nat}
    {o : Option Bool} (h : update ov var t v o = .ok var') :
    (∀ ty, var.type = some ty → var'.type = some ty) ∧ var.vis ≤ var'.vis := by
  obtain ⟨h1, h2, h3, h4, -⟩ := update_inv h
  refine ⟨fun ty e => ?_, ?_⟩
  · cases t with
    | none => rw [h1 rfl, e]
    | some u =>
      obtain ⟨a, b⟩ := h2 u rfl
      rw [a]
      rcases b with b | b
      · rw [e] at b; simp at b
      · rw [← b, e]
  · cases v with
    | none => rw [h3 rfl]; exact Nat.le_refl _
    | some g =>
      obtain ⟨a, b⟩ := h4 g rfl
      omega

theorem update_type_eq (ov : Bool) (var : Var) (v : Option Nat) (o : Option Bool) :
    update ov var none v o = update ov var var.type v o := by
  unfold update
  by_cases h : var.type = none
  · simp [h]
  · simp [h]

theorem update_vis_eq (ov : Bool) (var : Var) (t : Option Ty) (o : Option Bool) :
    update ov var t none o = update ov var t (some var.vis) o := by
  unfold update
  simp

/-! ## Steps seen from a name -/

theorem insert_inv {ov : Name → Bool} {ps : List Pat} {m m' : Pool} {n : Name} {x : Attrs}
    (h : insert ov ps m n x = .ok m') :
    (∀ k, k ≠ n → lookup m' k = lookup m k) ∧
    ∃ y, premerge (select ps n) x = .ok y ∧
      ((lookup m n = none ∧ lookup m' n = some ⟨y.type, y.vis.getD 1⟩) ∨
       ∃ var z var', lookup m n = some var ∧ remerge (select ps n) var x y = .ok z ∧
         update (ov n) var z.type z.vis (some (z.ovr.getD false)) = .ok var' ∧
         lookup m' n = some var') := by
  simp only [insert, bind, Except.bind] at h
  split at h
  · simp at h
  · rename_i y hy
    split at h
    · rename_i hl
      simp at h
      subst h
      refine ⟨fun k hk => by rw [lookup_append_new _ _ hl, if_neg hk], y, hy, .inl ⟨hl, ?_⟩⟩
      rw [lookup_append_new _ _ hl, if_pos rfl]
    · rename_i var hl
      split at h
      · simp at h
      · rename_i z hz
        split at h
        · simp at h
        · rename_i var' hv
          simp at h
          subst h
          refine ⟨fun k hk => by rw [lookup_assign, if_neg hk], y, hy,
            .inr ⟨var, z, var', hl, hz, hv, ?_⟩⟩
          rw [lookup_assign, if_pos rfl, hl]
          rfl

theorem attrs_inv {ov : Name → Bool} {m m' : Pool} {n : Name} {x : Attrs}
    (h : attrs ov m n x = .ok m') :
    (∀ k, k ≠ n → lookup m' k = lookup m k) ∧
    ∃ var var', lookup m n = some var ∧ lookup m' n = some var' ∧
      update (ov n) var x.type x.vis x.ovr = .ok var' := by
  unfold attrs at h
  split at h
  · simp at h
  · rename_i var hl
    split at h
    · simp at h
    · rename_i h1
      split at h
      · simp at h
      · rename_i h2
        simp only [bind, Except.bind] at h
        split at h
        · simp at h
        · rename_i var' hv
          simp at h
          subst h
          refine ⟨fun k hk => by rw [lookup_assign, if_neg hk], var, var', hl, ?_, ?_⟩
          · rw [lookup_assign, if_pos rfl, hl]; rfl
          · have ht : ∀ v, update (ov n) var (if var.type = x.type then none else x.type) v x.ovr =
                update (ov n) var x.type v x.ovr := by
              intro v
              split
              · rename_i e
                rw [update_type_eq, e]
              · rfl
            rw [ht] at hv
            split at hv
            · rename_i e
              rw [update_vis_eq, ← e] at hv
              exact hv
            · exact hv

theorem step_kept {ov : Name → Bool} {s s' : St} {op : Op} (t : Step ov s op s') {n : Name}
    {var : Var} (h : lookup s.pool n = some var) :
    ∃ var', lookup s'.pool n = some var' ∧
      (∀ ty, var.type = some ty → var'.type = some ty) ∧ var.vis ≤ var'.vis := by
  have same : ∀ {m : Pool}, lookup m n = lookup s.pool n → ∃ var', lookup m n = some var' ∧
      (∀ ty, var.type = some ty → var'.type = some ty) ∧ var.vis ≤ var'.vis :=
    fun e => ⟨var, by rw [e, h], fun _ e => e, Nat.le_refl _⟩
  cases t with
  | @insert k t v o m hi =>
    obtain ⟨h1, y, -, h2⟩ := insert_inv hi
    by_cases e : n = k
    · subst e
      rcases h2 with ⟨hn, -⟩ | ⟨var1, z, var', hl, -, hu, hl'⟩
      · rw [h] at hn; simp at hn
      · rw [h] at hl
        simp at hl
        subst hl
        exact ⟨var', hl', update_kept hu⟩
    · exact same (h1 n e)
  | @attrs k t v o m hi =>
    obtain ⟨h1, var1, var', hl, hl', hu⟩ := attrs_inv hi
    by_cases e : n = k
    · subst e
      rw [h] at hl
      simp at hl
      subst hl
      exact ⟨var', hl', update_kept hu⟩
    · exact same (h1 n e)
  | @pattern p r m tr ht hi =>
    cases r with
    | false =>
      simp at hi
      subst hi
      exact same rfl
    | true =>
      simp at hi
      obtain ⟨var', hl', h1, h2⟩ := (lookup_retro hi n).2 var h
      refine ⟨var', hl', ?_⟩
      cases ha : applies p (tr.split p).2 n with
      | false => rw [h1 ha]; exact ⟨fun _ e => e, Nat.le_refl _⟩
      | true => exact update_kept (h2 ha)

/-! ## Merging -/

theorem mergeType_strict {p : Pat} {t u : Option Ty} (hs : p.strict = true)
    (h : mergeType p t = .ok u) :
    (∀ ty, p.type = some (some ty) → u = some ty) ∧ (∀ ty, t = some ty → u = some ty) ∧
    ∀ ty, u = some ty → t = some ty ∨ p.type = some (some ty) := by
  unfold mergeType at h
  cases hp : p.type with
  | none =>
    simp only [hp] at h
    simp at h
    subst h
    simp
  | some w =>
    cases t with
    | none =>
      simp only [hp] at h
      simp at h
      subst h
      simp
    | some t =>
      simp only [hp, hs, if_true] at h
      split at h
      · rename_i e
        simp at h
        subst h
        subst e
        simp
      · simp at h

theorem mergeVis_strict {p : Pat} {v u : Option Nat} (hs : p.strict = true)
    (h : mergeVis p v = .ok u) :
    (∀ g, p.vis = some g → u = some g) ∧ (∀ g, v = some g → ∃ g', u = some g' ∧ g ≤ g') ∧
    ∀ g, u = some g → v = some g ∨ p.vis = some g := by
  unfold mergeVis at h
  cases hp : p.vis with
  | none =>
    simp only [hp] at h
    simp at h
    subst h
    refine ⟨by simp, fun g e => ⟨g, e, Nat.le_refl _⟩, fun g e => .inl e⟩
  | some w =>
    cases v with
    | none =>
      simp only [hp] at h
      simp at h
      subst h
      simp
    | some v =>
      simp only [hp, hs, if_true] at h
      split at h
      · rename_i e
        simp at h
        subst h
        simp
        omega
      · split at h
        · rename_i e
          simp at h
          subst h
          subst e
          simp
        · simp at h

theorem mergeOvr_strict {p : Pat} {v u : Option Bool} (hs : p.strict = true)
    (h : mergeOvr p v = .ok u) :
    (∀ g, p.ovr = some g → u = some g) ∧ (p.ovr = none → u = v) := by
  unfold mergeOvr at h
  cases hp : p.ovr with
  | none =>
    simp only [hp] at h
    simp at h
    subst h
    simp
  | some w =>
    cases v with
    | none =>
      simp only [hp] at h
      simp at h
      subst h
      simp
    | some v =>
      simp only [hp, hs, if_true] at h
      split at h
      · simp at h
        subst h
        simp
      · split at h
        · rename_i e
          simp at h
          subst h
          subst e
          simp
        · simp at h

theorem merge_inv {p : Pat} {x y : Attrs} (h : merge p x = .ok y) :
    mergeType p x.type = .ok y.type ∧ mergeVis p x.vis = .ok y.vis ∧
      mergeOvr p x.ovr = .ok y.ovr := by
  simp only [merge, bind, Except.bind] at h
  split at h
  · simp at h
  · rename_i t ht
    split at h
    · simp at h
    · rename_i v hv
      split at h
      · simp at h
      · rename_i o ho
        simp at h
        subst h
        exact ⟨ht, hv, ho⟩

/-! ## The invariant for any order -/

/-- The variable has what is specified. -/
structure Good (var : Var) (G : Nat → Prop) (T : Ty → Prop) : Prop where
  le : ∀ g, G g → g ≤ var.vis
  vis : G var.vis ∨ (∀ g, ¬ G g) ∧ var.vis = 1
  given : ∀ t, T t → var.type = some t
  type : ∀ t, var.type = some t → T t

theorem good_update {ov : Bool} {var var' : Var} {t : Option Ty} {v : Option Nat}
    {o : Option Bool} {G G' : Nat → Prop} {T T' : Ty → Prop} (hg : Good var G T)
    (h : update ov var t v o = .ok var')
    (g1 : ∀ g, G g → G' g) (g2 : ∀ g, v = some g → G' g)
    (g3 : ∀ g, G' g → G g ∨ ∃ g', v = some g' ∧ g ≤ g')
    (t1 : ∀ ty, T ty → T' ty) (t2 : ∀ ty, t = some ty → T' ty)
    (t3 : ∀ ty, T' ty → T ty ∨ t = some ty) : Good var' G' T' := by
  obtain ⟨h1, h2, h3, h4, -⟩ := update_inv h
  constructor
  · intro g hgg
    cases v with
    | none =>
      rw [h3 rfl]
      rcases g3 g hgg with e | ⟨g', e, -⟩
      · exact hg.le g e
      · simp at e
    | some u =>
      obtain ⟨a, b⟩ := h4 u rfl
      rw [a]
      rcases g3 g hgg with e | ⟨g', e, e'⟩
      · exact Nat.le_trans (hg.le g e) b
      · simp at e; omega
  · cases v with
    | none =>
      rw [h3 rfl]
      rcases hg.vis with e | ⟨e, e'⟩
      · exact .inl (g1 _ e)
      · refine .inr ⟨fun g hgg => ?_, e'⟩
        rcases g3 g hgg with c | ⟨g', c, -⟩
        · exact e g c
        · simp at c
    | some u =>
      obtain ⟨a, b⟩ := h4 u rfl
      rw [a]
      exact .inl (g2 u rfl)
  · intro ty hty
    cases t with
    | none =>
      rw [h1 rfl]
      rcases t3 ty hty with e | e
      · exact hg.given ty e
      · simp at e
    | some u =>
      obtain ⟨a, b⟩ := h2 u rfl
      rw [a]
      rcases t3 ty hty with e | e
      · have := hg.given ty e
        rcases b with b | b
        · rw [b] at this; simp at this
        · rw [← b, this]
      · exact e
  · intro ty hty
    cases t with
    | none =>
      rw [h1 rfl] at hty
      exact t1 ty (hg.type ty hty)
    | some u =>
      obtain ⟨a, b⟩ := h2 u rfl
      rw [a] at hty
      exact t2 ty hty

theorem good_same {var : Var} {G G' : Nat → Prop} {T T' : Ty → Prop} (hg : Good var G T)
    (h : ∀ g, G' g ↔ G g) (h' : ∀ t, T' t ↔ T t) : Good var G' T' := by
  have e1 : G' = G := funext fun g => propext (h g)
  have e2 : T' = T := funext fun g => propext (h' g)
  rw [e1, e2]
  exact hg

/-- What is asked of the operations for the order not to matter: the multiset works as
intended, and the patterns for the name are strict and applied to existing variables, with
more specific ones inserted first. -/
structure Tidy (os : List Op) (n : Name) : Prop where
  qualified : Qualified n
  regular : Regular (patterns os)
  first : (patterns os).Pairwise (fun p q => Matches p n → Matches q n → MoreSpecific p q)
  retro : ∀ p r, Op.pattern p r ∈ os → Matches p n → r = true ∧ p.strict = true

theorem tidy_prefix {os : List Op} {op : Op} {n : Name} (h : Tidy (os ++ [op]) n) :
    Tidy os n := by
  obtain ⟨h0, h1, h2, h3⟩ := h
  rw [patterns_append] at h1 h2
  exact ⟨h0, regular_mono h1 (fun x hx => by simp [hx]), (List.pairwise_append.1 h2).1,
    fun p r hp => h3 p r (by simp [hp])⟩

theorem pairwise_total {α : Type} {R : α → α → Prop} {l : List α} (h : l.Pairwise R) {a b : α}
    (ha : a ∈ l) (hb : b ∈ l) : a = b ∨ R a b ∨ R b a := by
  induction l with
  | nil => simp at ha
  | cons x l ih =>
    rw [List.pairwise_cons] at h
    simp only [List.mem_cons] at ha hb
    rcases ha with rfl | ha <;> rcases hb with rfl | hb
    · exact .inl rfl
    · exact .inr (.inl (h.1 b hb))
    · exact .inr (.inr (h.1 a ha))
    · exact ih h.2 ha hb

theorem inEffect_unique {os : List Op} {n : Name} (h : Tidy os n) {p q : Pat}
    (hp : InEffect os n p) (hq : InEffect os n q) : p = q := by
  obtain ⟨⟨r, hr⟩, hm, ha⟩ := hp
  obtain ⟨⟨r', hr'⟩, hm', ha'⟩ := hq
  rcases pairwise_total h.first (mem_patterns.2 ⟨r, hr⟩) (mem_patterns.2 ⟨r', hr'⟩) with
    e | e | e
  · exact e
  · exact absurd (e hm hm') (ha' p r hr hm)
  · exact absurd (e hm' hm) (ha q r' hr' hm')

theorem preferred_inEffect {os : List Op} {n : Name} {p : Pat}
    (h : Preferred (patterns os) n p) : InEffect os n p := by
  obtain ⟨a, b, e, hm, ha, hb⟩ := h
  refine ⟨mem_patterns.1 (by rw [e]; simp), hm, fun q r hq hqm => ?_⟩
  have := mem_patterns.2 ⟨r, hq⟩
  rw [e] at this
  simp only [List.mem_append, List.mem_cons] at this
  rcases this with h | rfl | h
  · exact ha q h hqm
  · exact moreSpecific_irrefl _
  · exact moreSpecific_asymm (hb q h hqm)

theorem inEffect_other {os : List Op} {op : Op} {n : Name} {p : Pat}
    (h : ∀ q r, op = .pattern q r → ¬ Matches q n) :
    InEffect (os ++ [op]) n p ↔ InEffect os n p := by
  unfold InEffect
  simp only [List.mem_append, List.mem_singleton]
  constructor
  · rintro ⟨⟨r, hr⟩, hm, ha⟩
    refine ⟨?_, hm, fun q r hq => ha q r (.inl hq)⟩
    rcases hr with hr | hr
    · exact ⟨r, hr⟩
    · exact absurd hm (h p r hr.symm)
  · rintro ⟨⟨r, hr⟩, hm, ha⟩
    refine ⟨⟨r, .inl hr⟩, hm, fun q r hq hqm => ?_⟩
    rcases hq with hq | hq
    · exact ha q r hq hqm
    · exact absurd hqm (h q r hq.symm)

/-- The invariant. -/
def Inv (os : List Op) (s : St) (n : Name) : Prop :=
  match lookup s.pool n with
  | none => ∀ t v o, Op.insert n t v o ∉ os ∧ Op.attrs n t v o ∉ os
  | some var => Good var (GivenVis os n) (GivenType os n)

theorem givenVis_insert {os : List Op} {n : Name} {t v o} {g : Nat} :
    GivenVis (os ++ [.insert n t v o]) n g ↔ GivenVis os n g ∨ v = some g := by
  unfold GivenVis
  have : ∀ p, InEffect (os ++ [Op.insert n t v o]) n p ↔ InEffect os n p :=
    fun p => inEffect_other (fun q r h => by simp at h)
  simp only [this, List.mem_append, List.mem_singleton, Op.insert.injEq, reduceCtorEq, or_false]
  constructor
  · rintro (⟨t', o', h | ⟨-, -, h, -⟩⟩ | h | h)
    · exact .inl (.inl ⟨t', o', h⟩)
    · exact .inr h.symm
    · exact .inl (.inr (.inl h))
    · exact .inl (.inr (.inr h))
  · rintro ((⟨t', o', h⟩ | h | h) | rfl)
    · exact .inl ⟨t', o', .inl h⟩
    · exact .inr (.inl h)
    · exact .inr (.inr h)
    · exact .inl ⟨t, o, .inr (by simp)⟩

theorem givenType_insert {os : List Op} {n : Name} {t v o} {g : Ty} :
    GivenType (os ++ [.insert n t v o]) n g ↔ GivenType os n g ∨ t = some g := by
  unfold GivenType
  have : ∀ p, InEffect (os ++ [Op.insert n t v o]) n p ↔ InEffect os n p :=
    fun p => inEffect_other (fun q r h => by simp at h)
  simp only [this, List.mem_append, List.mem_singleton, Op.insert.injEq, reduceCtorEq, or_false]
  constructor
  · rintro (⟨t', o', h | ⟨-, h, -, -⟩⟩ | h | h)
    · exact .inl (.inl ⟨t', o', h⟩)
    · exact .inr h.symm
    · exact .inl (.inr (.inl h))
    · exact .inl (.inr (.inr h))
  · rintro ((⟨t', o', h⟩ | h | h) | rfl)
    · exact .inl ⟨t', o', .inl h⟩
    · exact .inr (.inl h)
    · exact .inr (.inr h)
    · exact .inl ⟨v, o, .inr (by simp)⟩

theorem givenVis_attrs {os : List Op} {n : Name} {t v o} {g : Nat} :
    GivenVis (os ++ [.attrs n t v o]) n g ↔ GivenVis os n g ∨ v = some g := by
  unfold GivenVis
  have : ∀ p, InEffect (os ++ [Op.attrs n t v o]) n p ↔ InEffect os n p :=
    fun p => inEffect_other (fun q r h => by simp at h)
  simp only [this, List.mem_append, List.mem_singleton, Op.attrs.injEq, reduceCtorEq, or_false]
  constructor
  · rintro (h | ⟨t', o', h | ⟨-, -, h, -⟩⟩ | h)
    · exact .inl (.inl h)
    · exact .inl (.inr (.inl ⟨t', o', h⟩))
    · exact .inr h.symm
    · exact .inl (.inr (.inr h))
  · rintro ((h | ⟨t', o', h⟩ | h) | rfl)
    · exact .inl h
    · exact .inr (.inl ⟨t', o', .inl h⟩)
    · exact .inr (.inr h)
    · exact .inr (.inl ⟨t, o, .inr (by simp)⟩)

theorem givenType_attrs {os : List Op} {n : Name} {t v o} {g : Ty} :
    GivenType (os ++ [.attrs n t v o]) n g ↔ GivenType os n g ∨ t = some g := by
  unfold GivenType
  have : ∀ p, InEffect (os ++ [Op.attrs n t v o]) n p ↔ InEffect os n p :=
    fun p => inEffect_other (fun q r h => by simp at h)
  simp only [this, List.mem_append, List.mem_singleton, Op.attrs.injEq, reduceCtorEq, or_false]
  constructor
  · rintro (h | ⟨t', o', h | ⟨-, h, -, -⟩⟩ | h)
    · exact .inl (.inl h)
    · exact .inl (.inr (.inl ⟨t', o', h⟩))
    · exact .inr h.symm
    · exact .inl (.inr (.inr h))
  · rintro ((h | ⟨t', o', h⟩ | h) | rfl)
    · exact .inl h
    · exact .inr (.inl ⟨t', o', .inl h⟩)
    · exact .inr (.inr h)
    · exact .inr (.inl ⟨v, o, .inr (by simp)⟩)

/-- Operations that neither are about the name nor change which pattern is in effect. -/
theorem given_other {os : List Op} {op : Op} {n : Name}
    (hi : ∀ t v o, op ≠ .insert n t v o) (ha : ∀ t v o, op ≠ .attrs n t v o)
    (he : ∀ p, InEffect (os ++ [op]) n p ↔ InEffect os n p) :
    (∀ g, GivenVis (os ++ [op]) n g ↔ GivenVis os n g) ∧
    ∀ g, GivenType (os ++ [op]) n g ↔ GivenType os n g := by
  have hi' : ∀ t v o, Op.insert n t v o ∈ os ++ [op] ↔ Op.insert n t v o ∈ os := by
    intro t v o
    simp only [List.mem_append, List.mem_singleton]
    exact ⟨fun h => h.elim id (fun e => absurd e.symm (hi t v o)), .inl⟩
  have ha' : ∀ t v o, Op.attrs n t v o ∈ os ++ [op] ↔ Op.attrs n t v o ∈ os := by
    intro t v o
    simp only [List.mem_append, List.mem_singleton]
    exact ⟨fun h => h.elim id (fun e => absurd e.symm (ha t v o)), .inl⟩
  constructor <;> intro g
  · unfold GivenVis
    simp only [hi', ha', he]
  · unfold GivenType
    simp only [hi', ha', he]

theorem inv_other {os : List Op} {op : Op} {n : Name} {s s' : St} (h : Inv os s n)
    (hl : lookup s'.pool n = lookup s.pool n)
    (hi : ∀ t v o, op ≠ .insert n t v o) (ha : ∀ t v o, op ≠ .attrs n t v o)
    (he : ∀ p, InEffect (os ++ [op]) n p ↔ InEffect os n p) : Inv (os ++ [op]) s' n := by
  obtain ⟨g1, g2⟩ := given_other hi ha he
  unfold Inv at h ⊢
  rw [hl]
  split at h
  · rename_i e
    intro t v o
    simp only [List.mem_append, List.mem_singleton, not_or]
    exact ⟨⟨(h t v o).1, (hi t v o).symm⟩, (h t v o).2, (ha t v o).symm⟩
  · exact good_same h g1 g2

theorem inv_step {ov : Name → Bool} {os : List Op} {op : Op} {n : Name} {s s' : St}
    (ht : Tidy (os ++ [op]) n) (hms : Ms (patterns os) s.pats) (h : Inv os s n)
    (t : Step ov s op s') : Inv (os ++ [op]) s' n := by
  have htp := tidy_prefix ht
  cases t with
  | @insert k t v o m hi =>
    obtain ⟨h1, y, hy, h2⟩ := insert_inv hi
    by_cases e : n = k
    · subst e
      -- what is merged
      have hm : (∀ g, (∃ p, InEffect os n p ∧ p.vis = some g) → ∃ g', y.vis = some g' ∧ g ≤ g') ∧
          (∀ g, v = some g → ∃ g', y.vis = some g' ∧ g ≤ g') ∧
          (∀ g, y.vis = some g → v = some g ∨ ∃ p, InEffect os n p ∧ p.vis = some g) ∧
          (∀ g, (∃ p, InEffect os n p ∧ p.type = some (some g)) → y.type = some g) ∧
          (∀ g, t = some g → y.type = some g) ∧
          (∀ g, y.type = some g → t = some g ∨ ∃ p, InEffect os n p ∧ p.type = some (some g)) ∧
          ∀ var, remerge (select s.pats n) var ⟨t, v, o⟩ y = .ok y := by
        rw [select_eq htp.qualified] at hy ⊢
        cases hs : last s.pats n with
        | none =>
          rw [hs] at hy
          simp [premerge] at hy
          subst hy
          have hno : ∀ p, ¬ InEffect os n p := by
            rintro p ⟨⟨r, hr⟩, hm, -⟩
            exact last_none.1 hs p (hms.perm.mem_iff.2 (mem_patterns.2 ⟨r, hr⟩)) hm
          refine ⟨?_, fun g e => ⟨g, e, Nat.le_refl _⟩, fun g e => .inl e, ?_, fun g e => e,
            fun g e => .inl e, fun var => rfl⟩
          · rintro g ⟨p, hp, -⟩; exact absurd hp (hno p)
          · rintro g ⟨p, hp, -⟩; exact absurd hp (hno p)
        | some p =>
          rw [hs] at hy
          simp only [premerge] at hy
          have heff := preferred_inEffect (hms.last n p hs)
          obtain ⟨⟨r, hr⟩, hmm, -⟩ := heff
          have hst := (htp.retro p r hr hmm).2
          obtain ⟨a, b, -⟩ := merge_inv hy
          obtain ⟨a1, a2, a3⟩ := mergeType_strict hst a
          obtain ⟨b1, b2, b3⟩ := mergeVis_strict hst b
          have heff := preferred_inEffect (hms.last n p hs)
          refine ⟨?_, b2, ?_, ?_, a2, ?_, fun var => by simp [remerge, hst]⟩
          · rintro g ⟨q, hq, hg⟩
            have := inEffect_unique htp hq heff
            subst this
            exact ⟨g, b1 g hg, Nat.le_refl _⟩
          · intro g e
            rcases b3 g e with e | e
            · exact .inl e
            · exact .inr ⟨p, heff, e⟩
          · rintro g ⟨q, hq, hg⟩
            have := inEffect_unique htp hq heff
            subst this
            exact a1 g hg
          · intro g e
            rcases a3 g e with e | e
            · exact .inl e
            · exact .inr ⟨p, heff, e⟩
      obtain ⟨m1, m2, m3, m4, m5, m6, m7⟩ := hm
      unfold Inv at h ⊢
      rcases h2 with ⟨hn, hl'⟩ | ⟨var, z, var', hl, hz, hu, hl'⟩
      · rw [hn] at h
        simp only [hl']
        simp only at h
        have hv : ∀ g, GivenVis (os ++ [Op.insert n t v o]) n g ↔
            (∃ p, InEffect os n p ∧ p.vis = some g) ∨ v = some g := by
          intro g
          rw [givenVis_insert]
          unfold GivenVis
          constructor
          · rintro ((⟨t', o', e⟩ | ⟨t', o', e⟩ | e) | e)
            · exact absurd e (h _ _ _).1
            · exact absurd e (h _ _ _).2
            · exact .inl e
            · exact .inr e
          · rintro (e | e)
            · exact .inl (.inr (.inr e))
            · exact .inr e
        have hty : ∀ g, GivenType (os ++ [Op.insert n t v o]) n g ↔
            (∃ p, InEffect os n p ∧ p.type = some (some g)) ∨ t = some g := by
          intro g
          rw [givenType_insert]
          unfold GivenType
          constructor
          · rintro ((⟨t', o', e⟩ | ⟨t', o', e⟩ | e) | e)
            · exact absurd e (h _ _ _).1
            · exact absurd e (h _ _ _).2
            · exact .inl e
            · exact .inr e
          · rintro (e | e)
            · exact .inl (.inr (.inr e))
            · exact .inr e
        constructor
        · intro g hg
          simp only
          rcases (hv g).1 hg with e | e
          · obtain ⟨g', e1, e2⟩ := m1 g e
            rw [e1]; exact e2
          · obtain ⟨g', e1, e2⟩ := m2 g e
            rw [e1]; exact e2
        · simp only
          cases hyv : y.vis with
          | none =>
            refine .inr ⟨fun g hg => ?_, rfl⟩
            rcases (hv g).1 hg with e | e
            · obtain ⟨g', e1, e2⟩ := m1 g e
              rw [hyv] at e1; simp at e1
            · obtain ⟨g', e1, e2⟩ := m2 g e
              rw [hyv] at e1; simp at e1
          | some w =>
            refine .inl ((hv w).2 ?_)
            rcases m3 w hyv with e | e
            · exact .inr e
            · exact .inl e
        · intro g hg
          simp only
          rcases (hty g).1 hg with e | e
          · exact m4 g e
          · exact m5 g e
        · intro g hg
          simp only at hg
          refine (hty g).2 ?_
          rcases m6 g hg with e | e
          · exact .inr e
          · exact .inl e
      · rw [hl] at h
        simp only [hl']
        simp only at h
        have : z = y := by
          have := m7 var
          rw [hz] at this
          simpa using this
        subst this
        refine good_update h hu (fun g hg => givenVis_insert.2 (.inl hg)) ?_ ?_
          (fun g hg => givenType_insert.2 (.inl hg)) ?_ ?_
        · intro g hg
          rcases m3 g hg with e | e
          · exact givenVis_insert.2 (.inr e)
          · exact givenVis_insert.2 (.inl (.inr (.inr e)))
        · intro g hg
          rcases givenVis_insert.1 hg with e | e
          · exact .inl e
          · exact .inr (m2 g e)
        · intro g hg
          rcases m6 g hg with e | e
          · exact givenType_insert.2 (.inr e)
          · exact givenType_insert.2 (.inl (.inr (.inr e)))
        · intro g hg
          rcases givenType_insert.1 hg with e | e
          · exact .inl e
          · exact .inr (m5 g e)
    · refine inv_other h (h1 n e) ?_ ?_ (fun p => inEffect_other (fun q r c => by simp at c))
      · intro t' v' o' c
        simp only [Op.insert.injEq] at c
        exact e c.1.symm
      · intro t' v' o' c; simp at c
  | @attrs k t v o m hi =>
    obtain ⟨h1, var, var', hl, hl', hu⟩ := attrs_inv hi
    by_cases e : n = k
    · subst e
      unfold Inv at h ⊢
      rw [hl] at h
      simp only [hl']
      simp only at h hu
      refine good_update h hu (fun g hg => givenVis_attrs.2 (.inl hg))
        (fun g hg => givenVis_attrs.2 (.inr hg)) ?_
        (fun g hg => givenType_attrs.2 (.inl hg)) (fun g hg => givenType_attrs.2 (.inr hg))
        (fun g hg => givenType_attrs.1 hg)
      intro g hg
      rcases givenVis_attrs.1 hg with c | c
      · exact .inl c
      · exact .inr ⟨g, c, Nat.le_refl _⟩
    · refine inv_other h (h1 n e) ?_ ?_ (fun p => inEffect_other (fun q r c => by simp at c))
      · intro t' v' o' c; simp at c
      · intro t' v' o' c
        simp only [Op.attrs.injEq] at c
        exact e c.1.symm
  | @pattern p r m tr htr hi =>
    have hno : ∀ t v o, Op.pattern p r ≠ .insert n t v o := by intro t v o c; simp at c
    have hno' : ∀ t v o, Op.pattern p r ≠ .attrs n t v o := by intro t v o c; simp at c
    by_cases hm : Matches p n
    · obtain ⟨hr, hst⟩ := ht.retro p r (by simp) hm
      subst hr
      simp only [if_true] at hi
      obtain ⟨l1, l2⟩ := lookup_retro hi n
      have hreg : Regular (patterns os ++ [p]) := by
        have := ht.regular
        rwa [patterns_append] at this
      rw [← htr] at hms
      obtain ⟨s1, s2⟩ := split_mono p tr (mono_of_sorted (regular_mono hreg (fun x hx => by
        simp only [List.mem_cons] at hx
        rcases hx with rfl | hx
        · simp
        · simp [hms.perm.mem_iff.1 hx])) hms.sorted)
      have hf := ht.first
      rw [patterns_append, List.pairwise_append] at hf
      have hlater : ∀ q ∈ patterns os, Matches q n → MoreSpecific q p :=
        fun q hq hqm => hf.2.2 q hq p (by simp [patterns]) hqm hm
      by_cases hex : ∃ q ∈ patterns os, Matches q n
      · -- another one is in effect
        obtain ⟨q, hq, hqm⟩ := hex
        have hap : applies p (tr.split p).2 n = false := by
          unfold applies
          have : q ∈ (tr.split p).2 := by
            have hq' := hms.perm.mem_iff.2 hq
            rw [← split_append p tr, List.mem_append] at hq'
            rcases hq' with c | c
            · exact absurd (hlater q hq hqm) (s1 q c)
            · exact c
          have : (tr.split p).2.any (fun q => matchPattern q n) = true :=
            List.any_eq_true.2 ⟨q, this, (matchPattern_iff q n).2 hqm⟩
          simp [this]
        refine inv_other h ?_ hno hno' ?_
        · cases hl : lookup s.pool n with
          | none => exact l1 hl
          | some var =>
            obtain ⟨var', hl', e, -⟩ := l2 var hl
            simp only
            rw [hl', e hap]
        · intro p'
          constructor
          · rintro ⟨⟨r', hr'⟩, hm', ha'⟩
            simp only [List.mem_append, List.mem_singleton, Op.pattern.injEq] at hr'
            rcases hr' with hr' | ⟨rfl, rfl⟩
            · exact ⟨⟨r', hr'⟩, hm', fun q r hq => ha' q r (by simp [hq])⟩
            · obtain ⟨rq, hrq⟩ := mem_patterns.1 hq
              exact absurd (hlater q hq hqm) (ha' q rq (by simp [hrq]) hqm)
          · rintro ⟨⟨r', hr'⟩, hm', ha'⟩
            refine ⟨⟨r', by simp [hr']⟩, hm', fun q r hq hqm => ?_⟩
            simp only [List.mem_append, List.mem_singleton, Op.pattern.injEq] at hq
            rcases hq with hq | ⟨rfl, rfl⟩
            · exact ha' q r hq hqm
            · exact moreSpecific_asymm (hlater p' (mem_patterns.2 ⟨r', hr'⟩) hm')
      · -- this one is in effect
        have hnone : ∀ q, ¬ InEffect os n q := by
          rintro q ⟨⟨r', hr'⟩, hm', -⟩
          exact hex ⟨q, mem_patterns.2 ⟨r', hr'⟩, hm'⟩
        have heff : ∀ q, InEffect (os ++ [Op.pattern p true]) n q ↔ q = p := by
          intro q
          constructor
          · rintro ⟨⟨r', hr'⟩, hm', -⟩
            simp only [List.mem_append, List.mem_singleton, Op.pattern.injEq] at hr'
            rcases hr' with hr' | ⟨rfl, -⟩
            · exact absurd ⟨q, mem_patterns.2 ⟨r', hr'⟩, hm'⟩ hex
            · rfl
          · rintro rfl
            refine ⟨⟨true, by simp⟩, hm, fun q' r' hq' hqm' => ?_⟩
            simp only [List.mem_append, List.mem_singleton, Op.pattern.injEq] at hq'
            rcases hq' with hq' | ⟨rfl, -⟩
            · exact absurd ⟨q', mem_patterns.2 ⟨r', hq'⟩, hqm'⟩ hex
            · exact moreSpecific_irrefl _
        have hap : applies p (tr.split p).2 n = true := by
          unfold applies
          have : (tr.split p).2.any (fun q => matchPattern q n) = false := by
            rw [List.any_eq_false]
            intro q hq c
            refine hex ⟨q, ?_, (matchPattern_iff q n).1 c⟩
            refine hms.perm.mem_iff.1 ?_
            rw [← split_append p tr]
            simp [hq]
          simp [this, (matchPattern_iff p n).2 hm]
        have gv : ∀ g, GivenVis (os ++ [Op.pattern p true]) n g ↔
            GivenVis os n g ∨ p.vis = some g := by
          intro g
          unfold GivenVis
          simp [heff, hnone, or_assoc]
        have gt : ∀ g, GivenType (os ++ [Op.pattern p true]) n g ↔
            GivenType os n g ∨ p.type = some (some g) := by
          intro g
          unfold GivenType
          simp [heff, hnone, or_assoc]
        unfold Inv at h ⊢
        cases hl : lookup s.pool n with
        | none =>
          rw [hl] at h
          rw [show lookup (St.mk _ m).pool n = none from l1 hl]
          intro t v o
          simp only [List.mem_append, List.mem_singleton, reduceCtorEq, or_false]
          exact h t v o
        | some var =>
          rw [hl] at h
          obtain ⟨var', hl', -, hu⟩ := l2 var hl
          rw [show lookup (St.mk _ m).pool n = some var' from hl']
          simp only at h ⊢
          refine good_update h (hu hap) (fun g hg => (gv g).2 (.inl hg)) (fun g hg => (gv g).2
            (.inr hg)) ?_ (fun g hg => (gt g).2 (.inl hg)) ?_ ?_
          · intro g hg
            rcases (gv g).1 hg with c | c
            · exact .inl c
            · exact .inr ⟨g, c, Nat.le_refl _⟩
          · intro g hg
            refine (gt g).2 (.inr ?_)
            cases hpt : p.type with
            | none => rw [hpt] at hg; simp at hg
            | some u => rw [hpt] at hg; simp at hg; rw [hg]
          · intro g hg
            rcases (gt g).1 hg with c | c
            · exact .inl c
            · exact .inr (by rw [c]; rfl)
    · refine inv_other h ?_ hno hno' (fun q => inEffect_other (fun q' r' c => by
        simp only [Op.pattern.injEq] at c
        rw [← c.1]
        exact hm))
      cases r with
      | false =>
        simp at hi
        subst hi
        rfl
      | true =>
        simp only [if_true] at hi
        obtain ⟨l1, l2⟩ := lookup_retro hi n
        cases hl : lookup s.pool n with
        | none => exact l1 hl
        | some var =>
          obtain ⟨var', hl', e, -⟩ := l2 var hl
          simp only
          rw [hl', e]
          unfold applies
          have : matchPattern p n = false := by
            rw [← Bool.not_eq_true, matchPattern_iff]
            exact hm
          simp [this]

end Verif.VarPool
