import Verif.VarPool.Model

namespace Verif.VarPool

/-! ## Matching -/

theorem matchPattern_iff (p : Pat) (n : Name) : matchPattern p n = true ↔ Matches p n := by
  unfold matchPattern Matches
  by_cases h1 : n.length < p.pfx.length + p.sfx.length + 1
  · rw [if_pos h1]
    constructor
    · intro h; simp at h
    · rintro ⟨s, hs, rfl, -⟩
      have : 0 < s.length := List.length_pos_iff.2 hs
      simp at h1
      omega
  · rw [if_neg h1]
    have hpre : (p.pfx.length ≠ 0 && n.take p.pfx.length != p.pfx) = true ↔
        ¬ n.take p.pfx.length = p.pfx := by
      by_cases e : p.pfx = []
      · simp [e]
      · simp [e]
    have hsuf : (p.sfx.length ≠ 0 && n.drop (n.length - p.sfx.length) != p.sfx) = true ↔
        ¬ n.drop (n.length - p.sfx.length) = p.sfx := by
      by_cases e : p.sfx = []
      · simp [e]
      · simp [e]
    by_cases h2 : n.take p.pfx.length = p.pfx
    · rw [if_neg (by rw [hpre]; exact fun h => h h2)]
      by_cases h3 : n.drop (n.length - p.sfx.length) = p.sfx
      · rw [if_neg (by rw [hsuf]; exact fun h => h h3)]
        have hn : n = p.pfx ++
            (n.drop p.pfx.length).take (n.length - p.pfx.length - p.sfx.length) ++ p.sfx := by
          have e1 : n = p.pfx ++ n.drop p.pfx.length := by
            conv => lhs; rw [← List.take_append_drop p.pfx.length n, h2]
          have e2 : n.drop p.pfx.length =
              (n.drop p.pfx.length).take (n.length - p.pfx.length - p.sfx.length) ++ p.sfx := by
            conv => lhs; rw [← List.take_append_drop
              (n.length - p.pfx.length - p.sfx.length) (n.drop p.pfx.length)]
            rw [List.drop_drop]
            have e3 : p.pfx.length + (n.length - p.pfx.length - p.sfx.length) =
                n.length - p.sfx.length := by omega
            rw [e3, h3]
          rw [List.append_assoc, ← e2]
          exact e1
        constructor
        · intro h
          refine ⟨_, ?_, hn, ?_⟩
          · intro e
            have := congrArg List.length e
            simp at this
            omega
          · simpa using h
        · rintro ⟨s, hs, e, hm⟩
          have : (n.drop p.pfx.length).take (n.length - p.pfx.length - p.sfx.length) = s := by
            rw [e]
            have e3 : (p.pfx ++ s ++ p.sfx).length - p.pfx.length - p.sfx.length = s.length := by
              simp
            rw [e3]
            simp
          rw [this]
          simpa using hm
      · rw [if_pos (hsuf.2 h3)]
        constructor
        · intro h; simp at h
        · rintro ⟨s, hs, rfl, -⟩
          refine absurd ?_ h3
          simp
          rw [← List.append_assoc]
          rw [List.drop_append_of_le_length (by simp; omega)]
          rw [List.drop_of_length_le (by simp; omega)]
          rfl
    · rw [if_pos (hpre.2 h2)]
      constructor
      · intro h; simp at h
      · rintro ⟨s, hs, rfl, -⟩
        refine absurd ?_ h2
        simp

theorem lt_iff (x y : Pat) : lt x y = true ↔ MoreSpecific y x := by
  unfold lt MoreSpecific Same Pat.size
  by_cases h : x.pfx.length + x.sfx.length < y.pfx.length + y.sfx.length
  · simp [h]
  · rw [if_neg h]
    by_cases e : x.pfx = y.pfx ∧ x.sfx = y.sfx
    · rw [if_pos e]
      obtain ⟨e1, e2⟩ := e
      simp [e1, e2]
      constructor <;> (rintro ⟨a, b⟩; exact ⟨b, a⟩)
    · rw [if_neg e]
      simp
      refine ⟨by omega, fun e1 e2 => ?_⟩
      exact absurd ⟨e1.symm, e2.symm⟩ e

theorem moreSpecific_irrefl (p : Pat) : ¬ MoreSpecific p p := by
  rintro (h | ⟨-, h1, h2⟩)
  · omega
  · rw [h1] at h2; simp at h2

theorem moreSpecific_asymm {p q : Pat} (h : MoreSpecific p q) : ¬ MoreSpecific q p := by
  have hs : Same p q → p.size = q.size := fun e => by unfold Pat.size; rw [e.1, e.2]
  have hs' : Same q p → p.size = q.size := fun e => by unfold Pat.size; rw [e.1, e.2]
  rintro (h' | ⟨e', h1', h2'⟩)
  · rcases h with h | ⟨e, h1, h2⟩
    · omega
    · have := hs e; omega
  · rcases h with h | ⟨e, h1, h2⟩
    · have := hs' e'; omega
    · rw [h1] at h2'; simp at h2'

theorem preferred_unique {ps : List Pat} {n : Name} {p q : Pat} (h : Preferred ps n p)
    (h' : Preferred ps n q) : p = q := by
  obtain ⟨a, b, e, hm, ha, hb⟩ := h
  obtain ⟨a', b', e', hm', ha', hb'⟩ := h'
  rw [e] at e'
  rcases List.append_eq_append_iff.1 e' with ⟨c, hc, hd⟩ | ⟨c, hc, hd⟩
  · cases c with
    | nil => simp at hd; exact hd.1
    | cons x c =>
      simp at hd
      obtain ⟨rfl, rfl⟩ := hd
      exact absurd (hb q (by simp) hm') (ha' p (by rw [hc]; simp) hm)
  · cases c with
    | nil => simp at hd; exact hd.1.symm
    | cons x c =>
      simp at hd
      obtain ⟨rfl, rfl⟩ := hd
      exact absurd (hb' p (by simp) hm) (ha q (by rw [hc]; simp) hm')

/-! ## The multiset -/

/-- The order of the multiset: what is later is not less specific. -/
def Sorted (l : List Pat) : Prop := l.Pairwise (fun x y => ¬ MoreSpecific x y)

theorem split_append (k : Pat) (t : Tree) : (t.split k).1 ++ (t.split k).2 = t.list := by
  induction t with
  | nil => rfl
  | node l x r ihl ihr =>
    simp only [Tree.split, Tree.list]
    split
    · simp only
      rw [← List.append_assoc, ihl]
    · simp only [List.append_assoc, List.cons_append]
      rw [ihr]

theorem split_mono (k : Pat) (t : Tree)
    (h : t.list.Pairwise (fun x y => MoreSpecific x k → MoreSpecific y k)) :
    (∀ x ∈ (t.split k).1, ¬ MoreSpecific x k) ∧ ∀ x ∈ (t.split k).2, MoreSpecific x k := by
  induction t with
  | nil => simp [Tree.split]
  | node l x r ihl ihr =>
    simp only [Tree.list] at h
    rw [List.pairwise_append, List.pairwise_cons] at h
    obtain ⟨hl, ⟨hx, hr⟩, hlr⟩ := h
    unfold Tree.split
    split
    · rename_i e
      rw [lt_iff] at e
      refine ⟨(ihl hl).1, fun y hy => ?_⟩
      simp only [List.mem_append, List.mem_cons] at hy
      rcases hy with hy | rfl | hy
      · exact (ihl hl).2 y hy
      · exact e
      · exact hx y hy e
    · rename_i e
      rw [lt_iff] at e
      refine ⟨fun y hy => ?_, (ihr hr).2⟩
      simp only [List.mem_append, List.mem_cons] at hy
      rcases hy with hy | rfl | hy
      · exact fun hm => e (hlr y hy x (by simp) hm)
      · exact e
      · exact (ihr hr).1 y hy

theorem mono_of_sorted {l : List Pat} {k : Pat} (hr : Regular (k :: l)) (hs : Sorted l) :
    l.Pairwise (fun x y => MoreSpecific x k → MoreSpecific y k) := by
  refine List.Pairwise.imp_of_mem ?_ hs
  intro x y hx hy hn hk
  have hsz : ¬ y.size < x.size := fun e => hn (.inl e)
  rcases hk with hk | ⟨e, h1, h2⟩
  · exact .inl (by omega)
  · have hs : x.size = k.size := by unfold Pat.size; rw [e.1, e.2]
    by_cases h : k.size < y.size
    · exact .inl h
    · have hyx : Same y x := hr x (by simp [hx]) k (by simp) y (by simp [hy]) e
        (by rw [h1, h2]; simp) (by omega)
      refine .inr ⟨⟨hyx.1.trans e.1, hyx.2.trans e.2⟩, ?_, h2⟩
      cases hm : y.multi with
      | false => rfl
      | true => exact absurd (.inr ⟨⟨hyx.1.symm, hyx.2.symm⟩, h1, hm⟩) hn

theorem sorted_split {t : Tree} {k : Pat} (hr : Regular (k :: t.list)) (hs : Sorted t.list) :
    Sorted ((t.split k).1 ++ k :: (t.split k).2) := by
  obtain ⟨h1, h2⟩ := split_mono k t (mono_of_sorted hr hs)
  have hs' := hs
  rw [← split_append k t] at hs'
  unfold Sorted at hs' ⊢
  rw [List.pairwise_append] at hs' ⊢
  obtain ⟨ha, hb, hab⟩ := hs'
  refine ⟨ha, List.pairwise_cons.2 ⟨fun y hy => moreSpecific_asymm (h2 y hy), hb⟩, ?_⟩
  intro x hx y hy
  simp only [List.mem_cons] at hy
  rcases hy with rfl | hy
  · exact h1 x hx
  · exact hab x hx y hy

theorem regular_mono {l l' : List Pat} (h : Regular l) (hs : ∀ x ∈ l', x ∈ l) : Regular l' :=
  fun x hx y hy z hz => h x (hs x hx) y (hs y hy) z (hs z hz)

/-! ## Selection -/

theorem patterns_append (a b : List Op) : patterns (a ++ b) = patterns a ++ patterns b := by
  induction a with
  | nil => rfl
  | cons x a ih => cases x <;> simp [patterns, ih]

theorem mem_patterns {os : List Op} {p : Pat} :
    p ∈ patterns os ↔ ∃ r, Op.pattern p r ∈ os := by
  induction os with
  | nil => simp [patterns]
  | cons x os ih =>
    cases x with
    | pattern q r =>
      simp only [patterns, List.mem_cons, ih, Op.pattern.injEq]
      constructor
      · rintro (rfl | ⟨r', h⟩)
        · exact ⟨r, .inl ⟨rfl, rfl⟩⟩
        · exact ⟨r', .inr h⟩
      · rintro ⟨r', ⟨rfl, -⟩ | h⟩
        · exact .inl rfl
        · exact .inr ⟨r', h⟩
    | _ => simp [patterns, ih]

/-- The last one that matches. -/
def last (l : List Pat) (n : Name) : Option Pat := l.reverse.find? (fun p => matchPattern p n)

theorem last_append (a b : List Pat) (n : Name) :
    last (a ++ b) n = (last b n).or (last a n) := by
  simp [last, List.find?_append]

theorem last_none {l : List Pat} {n : Name} :
    last l n = none ↔ ∀ p ∈ l, ¬ Matches p n := by
  simp [last, matchPattern_iff]

theorem last_some {l : List Pat} {n : Name} {p : Pat} (h : last l n = some p) :
    p ∈ l ∧ Matches p n := by
  unfold last at h
  refine ⟨?_, (matchPattern_iff p n).1 (by simpa using List.find?_some h)⟩
  have := List.mem_of_find?_eq_some h
  simpa using this

theorem last_cons (k : Pat) (b : List Pat) (n : Name) :
    last (k :: b) n = (last b n).or (if matchPattern k n then some k else none) := by
  have : k :: b = [k] ++ b := rfl
  rw [this, last_append]
  congr 1
  simp only [last, List.reverse_cons, List.reverse_nil, List.nil_append, List.find?_cons,
    List.find?_nil]
  split <;> simp_all

/-- The multiset against the order of insertion. -/
structure Ms (ps l : List Pat) : Prop where
  sorted : Sorted l
  perm : l.Perm ps
  last : ∀ n p, last l n = some p → Preferred ps n p

theorem ms_insert {ps : List Pat} {t : Tree} {k : Pat} (hr : Regular (ps ++ [k]))
    (h : Ms ps t.list) : Ms (ps ++ [k]) ((t.split k).1 ++ k :: (t.split k).2) := by
  have hr' : Regular (k :: t.list) := regular_mono hr (fun x hx => by
    simp only [List.mem_cons] at hx
    rcases hx with rfl | hx
    · simp
    · simp [h.perm.mem_iff.1 hx])
  obtain ⟨h1, h2⟩ := split_mono k t (mono_of_sorted hr' h.sorted)
  have happ := split_append k t
  refine ⟨sorted_split hr' h.sorted, ?_, ?_⟩
  · refine List.perm_middle.trans ?_
    rw [happ]
    exact ((List.perm_append_singleton k ps).trans (h.perm.symm.cons k)).symm
  · intro n p hp
    rw [last_append, last_cons] at hp
    have hold : VarPool.last t.list n = (VarPool.last (t.split k).2 n).or
        (VarPool.last (t.split k).1 n) := by rw [← happ, last_append]
    have ext : Preferred ps n p → (Matches k n → MoreSpecific p k) →
        Preferred (ps ++ [k]) n p := by
      rintro ⟨a, b, e, hm, ha, hb⟩ hk
      refine ⟨a, b ++ [k], by rw [e]; simp, hm, ha, fun q hq => ?_⟩
      simp only [List.mem_append, List.mem_singleton] at hq
      rcases hq with hq | rfl
      · exact hb q hq
      · exact hk
    cases hb : VarPool.last (t.split k).2 n with
    | some q =>
      rw [hb] at hp hold
      simp at hp
      subst hp
      exact ext (h.last n q (by rw [hold]; rfl)) (fun _ => h2 q (last_some hb).1)
    | none =>
      rw [hb] at hp hold
      by_cases hk : matchPattern k n = true
      · simp [hk] at hp
        subst hp
        refine ⟨ps, [], rfl, (matchPattern_iff _ _).1 hk, ?_, by simp⟩
        intro q hq hqm
        have hq' := h.perm.mem_iff.2 hq
        rw [← happ, List.mem_append] at hq'
        rcases hq' with hq' | hq'
        · exact h1 q hq'
        · exact absurd hqm (last_none.1 hb q hq')
      · simp [hk] at hp
        exact ext (h.last n p (by rw [hold]; simpa using hp))
          (fun e => absurd ((matchPattern_iff _ _).2 e) hk)

theorem hist_ms {ov : Name → Bool} {os : List Op} {s : St} (h : Hist ov os s)
    (hr : Regular (patterns os)) : Ms (patterns os) s.pats := by
  induction h with
  | nil => exact ⟨.nil, .refl _, by simp [VarPool.last]⟩
  | step h t ih =>
    rw [patterns_append] at hr ⊢
    have ih := ih (regular_mono hr (fun x hx => by simp [hx]))
    cases t with
    | insert _ => simpa [patterns] using ih
    | attrs _ => simpa [patterns] using ih
    | pattern tr ht _ =>
      rw [← ht] at ih
      exact ms_insert hr ih

theorem select_eq {ps : List Pat} {n : Name} (hq : Qualified n) : select ps n = last ps n := by
  unfold select last
  rw [if_pos]
  unfold Qualified at hq
  simpa using hq

end Verif.VarPool
