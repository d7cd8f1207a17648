import Verif.ScopeMap.Spec
import Verif.ScopeMap.Model

namespace Verif.ScopeMap

/-! ### Prefixes -/

theorem prefix_antisymm {a b : Dir} (h1 : a <+: b) (h2 : b <+: a) : a = b :=
  h1.eq_of_length_le h2.length_le

theorem prefix_comparable {a b c : Dir} (h1 : a <+: c) (h2 : b <+: c) : a <+: b ∨ b <+: a :=
  List.prefix_or_prefix_of_prefix h1 h2

theorem innermost_unique {P : Dir → Prop} {d : Dir} {r1 r2 : Option Dir} (h1 : Innermost P d r1)
    (h2 : Innermost P d r2) : r1 = r2 := by
  cases r1 with
  | none =>
    cases r2 with
    | none => rfl
    | some b => exact absurd h2.2.1 (h1 b h2.1)
  | some a =>
    cases r2 with
    | none => exact absurd h1.2.1 (h2 a h1.1)
    | some b => rw [prefix_antisymm (h2.2.2 a h1.1 h1.2.1) (h1.2.2 b h2.1 h2.2.1)]

theorem innermost_congr {P Q : Dir → Prop} {d : Dir} {r : Option Dir}
    (h : ∀ b, b <+: d → (P b ↔ Q b)) (hi : Innermost P d r) : Innermost Q d r := by
  cases r with
  | none => exact fun b hb hbd => hi b ((h b hbd).2 hb) hbd
  | some a => exact ⟨(h a hi.2.1).1 hi.1, hi.2.1, fun b hb hbd => hi.2.2 b ((h b hbd).2 hb) hbd⟩

/-- The innermost directory after `k` is added, for directories in `k`. -/
theorem innermost_add {P : Dir → Prop} {k y : Dir} {rp r : Option Dir} (hk : ¬ P k) (hky : k <+: y)
    (hp : Innermost P k rp) (hr : Innermost P y r) :
    Innermost (fun b => P b ∨ b = k) y (if r = rp then some k else r) := by
  by_cases h : r = rp
  · rw [if_pos h]
    subst h
    refine ⟨Or.inr rfl, hky, ?_⟩
    intro b hb hby
    rcases hb with hb | rfl
    · cases r with
      | none => exact absurd hby (hr b hb)
      | some a => exact (hr.2.2 b hb hby).trans hp.2.1
    · exact List.prefix_rfl
  · rw [if_neg h]
    cases r with
    | none =>
      cases rp with
      | none => exact absurd rfl h
      | some q => exact absurd (hp.2.1.trans hky) (hr q hp.1)
    | some a =>
      refine ⟨Or.inl hr.1, hr.2.1, ?_⟩
      intro b hb hby
      rcases hb with hb | rfl
      · exact hr.2.2 b hb hby
      · rcases prefix_comparable hr.2.1 hby with hab | hba
        · exfalso
          cases rp with
          | none => exact hp a hr.1 hab
          | some q =>
            apply h
            rw [prefix_antisymm (hp.2.2 a hr.1 hab) (hr.2.2 q hp.1 (hp.2.1.trans hky))]
        · exact hba

/-! ### The order -/

theorem before_irrefl (k : Key) : before k k = false := by
  induction k with
  | nil => rfl
  | cons a k ih => simp [before, ih]

theorem before_trans {a b c : Key} (h1 : before a b = true) (h2 : before b c = true) :
    before a c = true := by
  induction a generalizing b c with
  | nil =>
    cases c with
    | nil => cases b <;> simp [before] at h2
    | cons z c => rfl
  | cons x a ih =>
    cases b with
    | nil => simp [before] at h1
    | cons y b =>
      cases c with
      | nil => simp [before] at h2
      | cons z c =>
        simp [before] at h1 h2 ⊢
        rcases h1 with h1 | ⟨rfl, h1⟩
        · rcases h2 with h2 | ⟨rfl, h2⟩
          · left; omega
          · left; exact h1
        · rcases h2 with h2 | ⟨rfl, h2⟩
          · left; exact h2
          · right; exact ⟨rfl, ih h1 h2⟩

theorem before_total {a b : Key} (hn : a ≠ b) (h : before a b = false) : before b a = true := by
  induction a generalizing b with
  | nil =>
    cases b with
    | nil => exact absurd rfl hn
    | cons y b => simp [before] at h
  | cons x a ih =>
    cases b with
    | nil => rfl
    | cons y b =>
      simp [before] at h ⊢
      by_cases hxy : x = y
      · subst hxy
        right
        exact ⟨rfl, ih (fun e => hn (by rw [e])) (by simpa using h.2)⟩
      · left; omega

/-- A directory is not before those that enclose it. -/
theorem not_before_prefix {a b : Key} (h : b <+: a) : before a b = false := by
  induction b generalizing a with
  | nil => cases a <;> rfl
  | cons y b ih =>
    obtain ⟨t, rfl⟩ := h
    simp [before]
    exact ih (List.prefix_append b t)

def Sorted (l : List Key) : Prop := l.Pairwise (fun a b => before a b = true)

theorem mem_insertKey {k x : Key} {l : List Key} : x ∈ insertKey k l ↔ x = k ∨ x ∈ l := by
  induction l with
  | nil => simp [insertKey]
  | cons a l ih =>
    rw [insertKey]
    split
    · rename_i h; subst h; simp
    · split
      · simp
      · simp [ih]
        constructor
        · rintro (h | h | h) <;> simp [h]
        · rintro (h | h | h) <;> simp [h]

theorem sorted_insertKey {k : Key} {l : List Key} (h : Sorted l) : Sorted (insertKey k l) := by
  induction l with
  | nil => simp [insertKey, Sorted]
  | cons a l ih =>
    rw [Sorted, List.pairwise_cons] at h
    rw [insertKey]
    split
    · exact List.pairwise_cons.2 h
    · split
      · rename_i hb
        refine List.pairwise_cons.2 ⟨?_, List.pairwise_cons.2 h⟩
        intro x hx
        rcases List.mem_cons.1 hx with rfl | hx
        · exact hb
        · exact before_trans hb (h.1 x hx)
      · rename_i hne hb
        refine List.pairwise_cons.2 ⟨?_, ih h.2⟩
        intro x hx
        rcases mem_insertKey.1 hx with rfl | hx
        · exact before_total hne (by simpa using hb)
        · exact h.1 x hx

/-- The subdirectories: the directory itself comes first. -/
theorem sub_spec {m : Map} {k : Key} (hs : Sorted m.keys) (hk : k ∈ m.keys) :
    Sorted (m.sub k).tail ∧ (∀ x, x ∈ (m.sub k).tail ↔ x ∈ m.keys ∧ k <+: x ∧ x ≠ k) := by
  have hmem : ∀ x, x ∈ m.sub k ↔ x ∈ m.keys ∧ k <+: x := by
    intro x; simp [Map.sub, List.isPrefixOf_iff_prefix]
  have hsub : Sorted (m.sub k) := List.Pairwise.sublist (List.filter_sublist) hs
  have hkk : k ∈ m.sub k := (hmem k).2 ⟨hk, List.prefix_rfl⟩
  cases hl : m.sub k with
  | nil => rw [hl] at hkk; cases hkk
  | cons h t =>
    rw [hl] at hsub hkk hmem
    rw [Sorted, List.pairwise_cons] at hsub
    have hh : h = k := by
      rcases List.mem_cons.1 hkk with h | h
      · exact h.symm
      · have h1 := hsub.1 k h
        rw [not_before_prefix ((hmem _).1 (by simp)).2] at h1
        cases h1
    subst hh
    refine ⟨hsub.2, fun x => ⟨fun hx => ?_, fun hx => ?_⟩⟩
    · have := (hmem x).1 (List.mem_cons_of_mem _ hx)
      refine ⟨this.1, this.2, ?_⟩
      rintro rfl
      have h1 := hsub.1 x hx
      rw [before_irrefl] at h1; cases h1
    · have := (hmem x).2 ⟨hx.1, hx.2.1⟩
      rcases List.mem_cons.1 this with h | h
      · exact absurd h hx.2.2
      · exact h

/-! ### Enclosing -/

theorem supIf_spec {m : Map} {q : Key → Bool} {k : Key} : ∀ {i : Nat}, i ≤ k.length →
    Innermost (fun b => b ∈ m.keys ∧ q b = true) (k.take i) (m.supIf q k i) := by
  intro i
  induction i with
  | zero =>
    intro _
    rw [Map.supIf, List.take_zero]
    by_cases h : [] ∈ m.keys ∧ q [] = true
    · rw [if_pos h]; exact ⟨h, List.prefix_rfl, fun b _ hb => hb⟩
    · rw [if_neg h]
      intro b hb hp
      have : b = [] := List.prefix_nil.1 hp
      subst this; exact h hb
  | succ i ih =>
    intro hi
    rw [Map.supIf]
    by_cases h : k.take (i + 1) ∈ m.keys ∧ q (k.take (i + 1)) = true
    · rw [if_pos h]; exact ⟨h, List.prefix_rfl, fun b _ hb => hb⟩
    · rw [if_neg h]
      have := ih (by omega)
      have hpre : ∀ b, (b ∈ m.keys ∧ q b = true) → b <+: k.take (i + 1) → b <+: k.take i := by
        intro b hb hp
        have hne : b ≠ k.take (i + 1) := by rintro rfl; exact h hb
        have hlen : b.length ≤ i := by
          have h1 := hp.length_le
          rw [List.length_take, Nat.min_eq_left hi] at h1
          rcases Nat.lt_or_ge i b.length with h2 | h2
          · exfalso
            apply hne
            exact hp.eq_of_length (by rw [List.length_take, Nat.min_eq_left hi]; omega)
          · exact h2
        have hp2 : b <+: k := hp.trans (List.take_prefix _ _)
        exact List.prefix_of_prefix_length_le hp2 (List.take_prefix _ _)
          (by rw [List.length_take]; omega)
      cases hsup : m.supIf q k i with
      | none =>
        rw [hsup] at this
        intro b hb hp
        exact this b hb (hpre b hb hp)
      | some a =>
        rw [hsup] at this
        exact ⟨this.1, this.2.1.trans (List.take_prefix_take_left (by omega)), fun b hb hp => this.2.2 b hb (hpre b hb hp)⟩

theorem sup_spec (m : Map) (q : Key → Bool) (k : Key) :
    Innermost (fun b => b ∈ m.keys ∧ q b = true) k (m.supIf q k k.length) := by
  have := supIf_spec (m := m) (q := q) (Nat.le_refl k.length)
  rwa [List.take_length] at this

/-! ### The loops -/

/-- What is done to a scope in the new one. -/
def adopted (k : Key) (root : Bool) (p : Key) (rp : Option Key) (c : Scope) : Scope :=
  ⟨if c.parent = some p then some k else c.parent, if root = true ∧ c.root = rp then some k else c.root⟩

theorem adopt_some {k : Key} {root : Bool} {p x : Key} {m : Map} :
    adopt k root (some p, m) x =
      .ok (some p, m.set x { m.ent x with out := (m.ent x).out.map (adopted k root p (m.rootOf p)) }) := by
  unfold adopt
  cases h : (m.ent x).out with
  | none =>
    simp only [Option.map_none]
    congr 2
    cases m with
    | mk keys ent =>
      simp only [Map.set]
      congr 1
      funext y
      by_cases hy : y = x
      · subst hy
        simp only [if_true]
        simp only [] at h
        rw [← h]
      · simp [hy]
  | some c =>
    simp only [Option.map_some, reduceCtorEq, and_false, if_false, Option.bind_some]
    congr 4
    unfold adopted
    by_cases h1 : root = true ∧ c.root = m.rootOf p
    · by_cases h2 : c.parent = some p
      · simp [h1, h2]
      · simp [h1, h2, Ne.symm h2]
    · by_cases h2 : c.parent = some p
      · simp [h1, h2]
      · simp [h1, h2]
        intro h3; exact absurd h3.symm h2

/-- The map with a function applied to the scopes of some directories. -/
def Map.mapOut (m : Map) (L : List Key) (f : Scope → Scope) : Map :=
  ⟨m.keys, fun x => if x ∈ L then { m.ent x with out := (m.ent x).out.map f } else m.ent x⟩

theorem mapOut_nil (m : Map) (f : Scope → Scope) : m.mapOut [] f = m := by
  cases m; simp [Map.mapOut]

theorem mapOut_cons {m : Map} {x : Key} {L : List Key} {f : Scope → Scope} (hx : x ∉ L) :
    (m.set x { m.ent x with out := (m.ent x).out.map f }).mapOut L f = m.mapOut (x :: L) f := by
  simp only [Map.mapOut, Map.set]
  congr 1
  funext y
  by_cases hy : y = x
  · subst hy; simp [hx]
  · by_cases hL : y ∈ L <;> simp [hy, hL]

theorem adoptAll_some {k : Key} {root : Bool} {p : Key} : ∀ (L : List Key) (m : Map),
    L.Nodup → p ∉ L →
    adoptAll k root (some p, m) L = .ok (some p, m.mapOut L (adopted k root p (m.rootOf p))) := by
  intro L
  induction L with
  | nil => intro m _ _; rw [adoptAll, mapOut_nil]
  | cons x L ih =>
    intro m hn hp
    rw [List.nodup_cons] at hn
    rw [adoptAll, adopt_some]
    simp only []
    rw [ih _ hn.2 (fun h => hp (List.mem_cons_of_mem _ h))]
    have hr : Map.rootOf (m.set x { m.ent x with out := (m.ent x).out.map (adopted k root p (m.rootOf p)) }) p
        = m.rootOf p := by
      have : p ≠ x := fun h => hp (by simp [h])
      simp [Map.rootOf, Map.set, this]
    rw [hr, mapOut_cons hn.1]

theorem adoptAll_skip {k : Key} {root : Bool} : ∀ (L : List Key) (M : List Key) (p : Option Key) (m : Map),
    (∀ x ∈ L, (m.ent x).out = none) → adoptAll k root (p, m) (L ++ M) = adoptAll k root (p, m) M := by
  intro L
  induction L with
  | nil => intro M p m _; rfl
  | cons x L ih =>
    intro M p m h
    rw [List.cons_append, adoptAll]
    have : adopt k root (p, m) x = .ok (p, m) := by
      unfold adopt; rw [h x (by simp)]
    rw [this]
    exact ih M p m (fun y hy => h y (by simp [hy]))

theorem adoptAll_first {k : Key} {root : Bool} {A B : List Key} {x p : Key} {m : Map} {c : Scope}
    (hA : ∀ y ∈ A, (m.ent y).out = none) (hx : (m.ent x).out = some c) (hc : c.parent = some p) :
    adoptAll k root (none, m) (A ++ x :: B) = adoptAll k root (some p, m) (A ++ x :: B) := by
  rw [adoptAll_skip A _ _ _ hA, adoptAll_skip A _ _ _ hA, adoptAll, adoptAll]
  have : adopt k root (none, m) x = adopt k root (some p, m) x := by
    unfold adopt
    rw [hx]
    simp [hc]
  rw [this]

theorem upgrade_fold {k : Key} {old : Option Key} : ∀ (L : List Key) (m : Map), L.Nodup →
    L.foldl (upgrade k old) m =
      m.mapOut L (fun c => if c.root = old then { c with root := some k } else c) := by
  intro L
  induction L with
  | nil => intro m _; rw [List.foldl_nil, mapOut_nil]
  | cons x L ih =>
    intro m hn
    rw [List.nodup_cons] at hn
    rw [List.foldl_cons]
    have : upgrade k old m x = m.set x { m.ent x with
        out := (m.ent x).out.map fun c => if c.root = old then { c with root := some k } else c } := by
      have same : ∀ e, e = m.ent x → m.set x e = m := by
        rintro e rfl
        cases m with
        | mk keys ent =>
          simp only [Map.set]
          congr 1
          funext y
          by_cases hy : y = x
          · subst hy; simp
          · simp [hy]
      unfold upgrade
      cases h : (m.ent x).out with
      | none =>
        simp only [Option.map_none]
        rw [same _ (by rw [← h])]
      | some c =>
        simp only [Option.map_some]
        by_cases hr : c.root = old
        · simp [hr]
        · simp only [hr, if_false]
          rw [same _ (by rw [← h])]
    rw [this, ih _ hn.2, mapOut_cons hn.1]

theorem sorted_nodup {l : List Key} (h : Sorted l) : l.Nodup := by
  refine List.Pairwise.imp ?_ h
  rintro a b hab rfl
  rw [before_irrefl] at hab; cases hab

/-- The first element satisfying a condition. -/
theorem split_first {α : Type} (q : α → Bool) : ∀ l : List α,
    (∀ x ∈ l, q x = false) ∨ ∃ A x B, l = A ++ x :: B ∧ q x = true ∧ ∀ y ∈ A, q y = false := by
  intro l
  induction l with
  | nil => left; simp
  | cons a l ih =>
    cases ha : q a with
    | true => exact Or.inr ⟨[], a, l, rfl, ha, by simp⟩
    | false =>
      rcases ih with h | ⟨A, x, B, rfl, hx, hA⟩
      · left; intro x hx
        rcases List.mem_cons.1 hx with rfl | hx
        · exact ha
        · exact h x hx
      · refine Or.inr ⟨a :: A, x, B, rfl, hx, ?_⟩
        intro y hy
        rcases List.mem_cons.1 hy with rfl | hy
        · exact ha
        · exact hA y hy

end Verif.ScopeMap
