import Verif.LinkOrder.Model

/-!
# Link order of libraries: the arguments as a list of what they are for
-/

namespace Verif.LinkOrder

variable {n : Nat}

/-- What is passed and for what. -/
abbrev Order (n : Nat) := List (Dep n × List Str)

/-- The arguments. -/
def flat (o : Order n) : List Str := o.flatMap (·.2)

theorem flat_append (a b : Order n) : flat (a ++ b) = flat a ++ flat b := by simp [flat]

theorem flat_cons (x : Dep n × List Str) (b : Order n) : flat (x :: b) = x.2 ++ flat b := by
  simp [flat]

/-- What is passed. -/
def things (o : Order n) : List (Dep n) := o.map (·.1)

theorem things_append (a b : Order n) : things (a ++ b) = things a ++ things b := by simp [things]

/-! ## Finding -/

theorem find_key {ls : List (Ent n)} {d : Dep n} {x : Ent n} (h : find ls d = some x) : x.key = d := by
  simpa using List.find?_some h

theorem find_map {ls : List (Ent n)} {d : Dep n} {h : Ent n → Ent n} (hk : ∀ x, (h x).key = x.key) :
    find (ls.map h) d = (find ls d).map h := by
  unfold find
  rw [List.find?_map]
  congr 1
  congr 1
  funext x
  simp [hk]

theorem find_update {ls : List (Ent n)} {d d' : Dep n} {f : Ent n → Ent n}
    (hk : ∀ x, (f x).key = x.key) :
    find (update ls d f) d' = (find ls d').map fun x => if x.key == d then f x else x := by
  unfold update
  rw [find_map]
  intro x
  by_cases h : (x.key == d) = true
  · rw [if_pos h]; exact hk x
  · rw [if_neg h]

theorem find_snoc {ls : List (Ent n)} {d : Dep n} {x : Ent n} :
    find (ls ++ [x]) d = match find ls d with
      | some y => some y
      | none => if x.key == d then some x else none := by
  unfold find
  rw [List.find?_append]
  cases h : List.find? (fun x => x.key == d) ls with
  | some y => rfl
  | none =>
    simp only [Option.none_or]
    by_cases hk : (x.key == d) = true
    · simp [hk]
    · simp [hk]

/-! ## The representation -/

/-- The arguments are those in the order after the given ones, and the entries know where. -/
structure Rep (P : List Str) (s : St n) (o : Order n) : Prop where
  args : s.args = P ++ flat o
  uniq : ((things o).filter Dep.once).Nodup
  ent : ∀ a d f b, o = a ++ (d, f) :: b → d.once = true → ∃ x k, find s.ls d = some x ∧ x.e = .at k ∧
    ((f = [] ∧ x.b = k) ∨ (f ≠ [] ∧ x.b = (P ++ flat a).length ∧ k = x.b + f.length))
  known : ∀ d x, find s.ls d = some x → d ∈ things o

theorem split_snoc {α : Type} {a b a1 b1 : List α} {y z : α} (h : a ++ b ++ [z] = a1 ++ y :: b1) :
    (∃ c, a = a1 ++ y :: c) ∨ (∃ c b2, a1 = a ++ c ∧ b = c ++ y :: b2) ∨
    (a1 = a ++ b ∧ y = z) := by
  rcases List.eq_nil_or_concat b1 with rfl | ⟨b1', l, rfl⟩
  · obtain ⟨h1, h2⟩ := List.append_inj' h rfl
    cases h2
    exact .inr (.inr ⟨h1.symm, rfl⟩)
  · rw [List.concat_eq_append, ← List.cons_append, ← List.append_assoc] at h
    obtain ⟨h1, -⟩ := List.append_inj' h rfl
    rw [List.append_eq_append_iff] at h1
    rcases h1 with ⟨c, h2, h3⟩ | ⟨c, h2, h3⟩
    · cases c with
      | nil =>
        simp at h2 h3
        exact .inr (.inl ⟨[], b1', by simp [h2], by simp [h3]⟩)
      | cons w c =>
        exact .inr (.inl ⟨w :: c, b1', h2, h3⟩)
    · cases c with
      | nil =>
        simp at h2 h3
        exact .inr (.inl ⟨[], b1', by simp [h2], by simp [h3]⟩)
      | cons w c =>
        simp at h3
        obtain ⟨rfl, h3⟩ := h3
        exact .inl ⟨c, h2⟩

/-- The things are different in other places. -/
theorem Rep.unique {P : List Str} {s : St n} {a b : Order n} {d : Dep n} {f : List Str}
    (h : Rep P s (a ++ (d, f) :: b)) (hd : d.once = true) : d ∉ things a ∧ d ∉ things b := by
  have := h.uniq
  rw [things_append, List.filter_append] at this
  simp only [things, List.map_cons] at this
  rw [List.filter_cons_of_pos hd, List.nodup_append, List.nodup_cons] at this
  obtain ⟨-, ⟨h1, -⟩, h2⟩ := this
  constructor
  · intro hc
    exact h2 d (List.mem_filter.2 ⟨hc, hd⟩) d (by simp) rfl
  · intro hc
    exact h1 (List.mem_filter.2 ⟨hc, hd⟩)

theorem mem_things {a : Order n} {d : Dep n} {f : List Str} {c c' : Order n}
    (h : a = c ++ (d, f) :: c') : d ∈ things a := by
  rw [h]; simp [things]

theorem uniq_touch {a b : Order n} {d : Dep n} {f : List Str}
    (h : ((things (a ++ (d, f) :: b)).filter Dep.once).Nodup) :
    ((things (a ++ b ++ [(d, f)])).filter Dep.once).Nodup := by
  have hp : (things (a ++ (d, f) :: b)).Perm (things (a ++ b ++ [(d, f)])) := by
    unfold things
    apply List.Perm.map
    have : (a ++ (d, f) :: b).Perm ((d, f) :: (a ++ b)) := List.perm_middle
    exact this.trans (List.perm_append_singleton (d, f) (a ++ b)).symm
  exact (hp.filter _).nodup h

/-- Hoisting. -/
theorem hoist_rep {P : List Str} {s : St n} {a b : Order n} {d : Dep n} {f : List Str} {x : Ent n}
    (h : Rep P s (a ++ (d, f) :: b)) (hd : d.once = true) (hx : find s.ls d = some x) :
    ∃ s', hoist s x = .ok s' ∧ Rep P s' (a ++ b ++ [(d, f)]) := by
  obtain ⟨x', k, h1, h2, h3⟩ := h.ent a d f b rfl hd
  rw [hx] at h1
  cases h1
  obtain ⟨u1, u2⟩ := h.unique hd
  have hkn : ∀ y, y ∈ things (a ++ (d, f) :: b) → y ∈ things (a ++ b ++ [(d, f)]) := by
    intro y hy
    simp [things] at hy ⊢
    rcases hy with hy | hy | hy
    · exact .inl hy
    · exact .inr (.inr hy)
    · exact .inr (.inl hy)
  rcases h3 with ⟨rfl, h3⟩ | ⟨hf, h3, h4⟩
  · refine ⟨s, by simp [hoist, h2, h3], ?_, uniq_touch h.uniq, ?_, fun y z hy => hkn _ (h.known y z hy)⟩
    · rw [h.args]; simp [flat]
    · intro a1 d1 f1 b1 hs ho
      rcases split_snoc hs with ⟨c, rfl⟩ | ⟨c, b2, rfl, rfl⟩ | ⟨rfl, hz⟩
      · exact h.ent a1 d1 f1 (c ++ (d, []) :: b) (by simp) ho
      · have := h.ent (a ++ (d, []) :: c) d1 f1 b2 (by simp) ho
        simpa [flat] using this
      · cases hz
        exact ⟨x, k, hx, h2, .inl ⟨rfl, h3⟩⟩
  · have hlen : k ≤ s.args.length := by
      rw [h.args, h4, h3, flat_append, flat_cons]
      simp
      omega
    have hne : f.length ≠ 0 := by simpa using hf
    have hargs : s.args.take x.b ++ s.args.drop k ++ (s.args.take k).drop x.b =
        P ++ flat (a ++ b ++ [(d, f)]) := by
      have e1 : s.args = (P ++ flat a) ++ (f ++ flat b) := by
        rw [h.args, flat_append, flat_cons]; simp
      have t1 : s.args.take x.b = P ++ flat a := by
        rw [e1, h3, List.take_left']; rfl
      have t2 : s.args.drop k = flat b := by
        rw [e1, ← List.append_assoc, List.drop_left']
        rw [h4, h3]; simp; omega
      have t3 : (s.args.take k).drop x.b = f := by
        have : s.args.take k = (P ++ flat a) ++ f := by
          rw [e1, ← List.append_assoc, List.take_left']
          rw [h4, h3]; simp; omega
        rw [this, List.drop_left']
        exact h3.symm
      rw [t1, t2, t3]
      simp [flat]
    have hlen' : (s.args.take x.b ++ s.args.drop k ++ (s.args.take k).drop x.b).length =
        s.args.length := by
      rw [hargs, h.args]
      simp [flat]
      omega
    refine ⟨_, by
      unfold hoist
      simp only [h2]
      rw [if_neg (by omega), if_neg (by omega)], ?_, uniq_touch h.uniq, ?_, ?_⟩
    · simp only
      exact hargs
    · intro a1 d1 f1 b1 hs ho
      simp only
      rw [find_update (by intro y; rfl)]
      rw [find_map (by intro y; split <;> rfl)]
      -- Elements other than this one.
      have other : ∀ {y : Ent n} {k1 : Nat}, d1 ≠ d → find s.ls d1 = some y → y.e = .at k1 →
          ((f1 = [] ∧ y.b = k1) ∨ (f1 ≠ [] ∧ (y.b + f1.length ≤ x.b ∨ k ≤ y.b) ∧ k1 = y.b + f1.length ∧
            (y.b + f1.length ≤ x.b → y.b = (P ++ flat a1).length) ∧
            (k ≤ y.b → y.b - (k - x.b) = (P ++ flat a1).length))) →
          ∃ x_1 k_1, Option.map (fun x_2 => if (x_2.key == x.key) = true then
                { x_2 with
                  b := (s.args.take x.b ++ s.args.drop k ++ (s.args.take k).drop x.b).length - (k - x.b),
                  e := End.at (s.args.take x.b ++ s.args.drop k ++ (s.args.take k).drop x.b).length }
              else x_2)
              (Option.map (fun y => if k ≤ y.b then { y with b := y.b - (k - x.b), e := y.e.sub (k - x.b) } else y)
                (find s.ls d1)) = some x_1 ∧ x_1.e = End.at k_1 ∧
            ((f1 = [] ∧ x_1.b = k_1) ∨ (f1 ≠ [] ∧ x_1.b = (P ++ flat a1).length ∧ k_1 = x_1.b + f1.length)) := by
        intro y k1 hdd hy hye hcase
        have hyk := find_key hy
        have hxk := find_key hx
        have hne' : (y.key == x.key) = false := by
          rw [hyk, hxk]; simp [hdd]
        rw [hy]
        simp only [Option.map_some]
        by_cases hky : k ≤ y.b
        · rw [if_pos hky]
          simp only [hne', Bool.false_eq_true, if_false]
          refine ⟨_, k1 - (k - x.b), rfl, by simp [hye, End.sub], ?_⟩
          simp only
          rcases hcase with ⟨h5, h6⟩ | ⟨h5, h6, h7, h8, h9⟩
          · exact .inl ⟨h5, by omega⟩
          · refine .inr ⟨h5, h9 hky, ?_⟩
            omega
        · rw [if_neg hky]
          simp only [hne', Bool.false_eq_true, if_false]
          refine ⟨_, k1, rfl, hye, ?_⟩
          rcases hcase with ⟨h5, h6⟩ | ⟨h5, h6, h7, h8, h9⟩
          · exact .inl ⟨h5, h6⟩
          · exact .inr ⟨h5, h8 (by omega), h7⟩
      rcases split_snoc hs with ⟨c, rfl⟩ | ⟨c, b2, rfl, rfl⟩ | ⟨rfl, hz⟩
      · obtain ⟨y, k1, g1, g2, g3⟩ := h.ent a1 d1 f1 (c ++ (d, f) :: b) (by simp) ho
        refine other ?_ g1 g2 ?_
        · rintro rfl; exact u1 (mem_things rfl)
        · rcases g3 with g3 | ⟨g3, g4, g5⟩
          · exact .inl g3
          · refine .inr ⟨g3, .inl ?_, g5, fun _ => g4, ?_⟩
            · rw [h3, g4, flat_append, flat_cons]; simp; omega
            · intro hk
              exfalso
              have : f1.length ≠ 0 := by simpa using g3
              rw [h4, h3, flat_append, flat_cons] at hk
              rw [g4] at hk
              simp at hk
              omega
      · obtain ⟨y, k1, g1, g2, g3⟩ := h.ent (a ++ (d, f) :: c) d1 f1 b2 (by simp) ho
        refine other ?_ g1 g2 ?_
        · rintro rfl; exact u2 (mem_things rfl)
        · rcases g3 with g3 | ⟨g3, g4, g5⟩
          · exact .inl g3
          · rw [flat_append, flat_cons] at g4
            simp at g4 h3
            refine .inr ⟨g3, .inr ?_, g5, ?_, ?_⟩
            · omega
            · intro hk; exfalso; omega
            · intro _
              rw [flat_append]
              simp
              omega
      · cases hz
        rw [hx]
        simp only [Option.map_some]
        have hnk : ¬ k ≤ x.b := by omega
        rw [if_neg hnk]
        simp only [beq_self_eq_true, if_true]
        refine ⟨_, _, rfl, rfl, .inr ⟨hf, ?_, ?_⟩⟩
        · simp only
          rw [hlen', h.args]
          rw [flat_append, flat_cons, flat_append]
          simp
          omega
        · simp only
          omega
    · intro y z hy
      simp only at hy
      rw [find_update (by intro y; rfl), find_map (by intro y; split <;> rfl)] at hy
      cases hf : find s.ls y with
      | none => rw [hf] at hy; simp at hy
      | some z' => exact hkn _ (h.known _ _ hf)

theorem append_find {ls : List (Ent n)} {d : Dep n} {b : Nat} {x : Ent n} (h : find ls d = some x) :
    append ls d b = (ls, x) := by simp [append, h]

theorem append_new {ls : List (Ent n)} {d : Dep n} {b : Nat} (h : find ls d = none) :
    append ls d b = (ls ++ [⟨d, b, .npos 0⟩], ⟨d, b, .npos 0⟩) := by simp [append, h]

/-- Adding something that is not known. -/
theorem new_rep {P : List Str} {s : St n} {o : Order n} {d : Dep n} {f : List Str}
    (h : Rep P s o) (hd : d.once = true) (hx : find s.ls d = none) (cs : List Hashed) :
    Rep P ⟨update (s.ls ++ [⟨d, s.args.length, .npos 0⟩]) d
      (fun x => { x with e := .at (s.args ++ f).length }), s.args ++ f, cs⟩ (o ++ [(d, f)]) := by
  have hnot : d ∉ things o := by
    intro hc
    obtain ⟨⟨d', f'⟩, hm, rfl⟩ := List.mem_map.1 hc
    obtain ⟨a, b, hab⟩ := List.append_of_mem hm
    obtain ⟨x, k, h1, -⟩ := h.ent a _ _ b hab hd
    simp only at hx
    rw [hx] at h1
    cases h1
  refine ⟨?_, ?_, ?_, ?_⟩
  · simp only
    rw [h.args, flat_append]
    simp [flat]
  · rw [things_append, List.filter_append, List.nodup_append]
    refine ⟨h.uniq, ?_, ?_⟩
    · simp [things, hd]
    · intro y hy z hz hyz
      subst hyz
      simp [things, hd] at hz
      subst hz
      exact hnot (List.mem_filter.1 hy).1
  · intro a1 d1 f1 b1 hs ho
    simp only
    rw [find_update (by intro y; rfl), find_snoc]
    have hs' : [] ++ o ++ [(d, f)] = a1 ++ (d1, f1) :: b1 := by simpa using hs
    rcases split_snoc hs' with ⟨c, hc⟩ | ⟨c, b2, hc1, rfl⟩ | ⟨rfl, hz⟩
    · simp at hc
    · simp at hc1
      subst hc1
      obtain ⟨y, k1, g1, g2, g3⟩ := h.ent a1 d1 f1 b2 rfl ho
      rw [g1]
      have hk : (y.key == d) = false := by
        rw [find_key g1]
        have : d1 ≠ d := by rintro rfl; exact hnot (mem_things rfl)
        simpa using this
      simp only [Option.map_some, hk, Bool.false_eq_true, if_false]
      exact ⟨y, k1, rfl, g2, by simpa using g3⟩
    · cases hz
      rw [hx]
      simp only [beq_self_eq_true, if_true, Option.map_some]
      refine ⟨_, _, rfl, rfl, ?_⟩
      by_cases hf : f = []
      · exact .inl ⟨hf, by simp [hf]⟩
      · refine .inr ⟨hf, ?_, by simp⟩
        simp [h.args]
  · intro d1 x1 h1
    simp only at h1
    rw [find_update (by intro y; rfl), find_snoc] at h1
    rw [things_append]
    cases hf : find s.ls d1 with
    | some y => exact List.mem_append_left _ (h.known _ _ hf)
    | none =>
      rw [hf] at h1
      simp only at h1
      by_cases hk : (d == d1) = true
      · have : d = d1 := by simpa using hk
        subst this
        simp [things]
      · rw [if_neg hk] at h1; cases h1

/-- Adding something that is not tracked. -/
theorem untracked_rep {P : List Str} {s : St n} {o : Order n} {d : Dep n} {f : List Str}
    (h : Rep P s o) (hd : d.once = false) (cs : List Hashed) :
    Rep P ⟨s.ls, s.args ++ f, cs⟩ (o ++ [(d, f)]) := by
  refine ⟨?_, ?_, ?_, ?_⟩
  · simp only
    rw [h.args, flat_append]
    simp [flat]
  · rw [things_append, List.filter_append]
    have : (things [(d, f)]).filter Dep.once = [] := by simp [things, hd]
    rw [this, List.append_nil]
    exact h.uniq
  · intro a1 d1 f1 b1 hs ho
    have hs' : [] ++ o ++ [(d, f)] = a1 ++ (d1, f1) :: b1 := by simpa using hs
    rcases split_snoc hs' with ⟨c, hc⟩ | ⟨c, b2, hc1, rfl⟩ | ⟨rfl, hz⟩
    · simp at hc
    · simp at hc1
      subst hc1
      simpa using h.ent a1 d1 f1 b2 rfl ho
    · cases hz
      rw [hd] at ho
      cases ho
  · intro d1 x1 h1
    rw [things_append]
    exact List.mem_append_left _ (h.known _ _ h1)

/-- What happens to the order: it is hoisted if known and tracked, and added otherwise. -/
inductive Touch (o : Order n) (d : Dep n) (f : List Str) : Order n → Prop
  | known {a b : Order n} {f' : List Str} : d.once = true → o = a ++ (d, f') :: b →
      Touch o d f (a ++ b ++ [(d, f')])
  | new : d.once = true → d ∉ things o → Touch o d f (o ++ [(d, f)])
  | again : d.once = false → Touch o d f (o ++ [(d, f)])

theorem find_of_mem {P : List Str} {s : St n} {o : Order n} (h : Rep P s o) {d : Dep n}
    (hd : d.once = true) : (∃ x k, find s.ls d = some x ∧ x.e = .at k ∧ d ∈ things o) ∨
      (find s.ls d = none ∧ d ∉ things o) := by
  cases hf : find s.ls d with
  | some x =>
    have hm := h.known _ _ hf
    obtain ⟨⟨d', f'⟩, hm', rfl⟩ := List.mem_map.1 hm
    obtain ⟨a, b, hab⟩ := List.append_of_mem hm'
    obtain ⟨x', k, h1, h2, -⟩ := h.ent a _ _ b hab hd
    simp only at hf
    rw [hf] at h1
    cases h1
    exact .inl ⟨x, k, rfl, h2, hm⟩
  | none =>
    refine .inr ⟨rfl, ?_⟩
    intro hm
    obtain ⟨⟨d', f'⟩, hm', rfl⟩ := List.mem_map.1 hm
    obtain ⟨a, b, hab⟩ := List.append_of_mem hm'
    obtain ⟨x', k, h1, -⟩ := h.ent a _ _ b hab hd
    simp only at hf
    rw [hf] at h1
    cases h1

theorem libWords_rep {P : List Str} {s : St n} {o : Order n} (h : Rep P s o) (c : List Str) :
    ∃ s' o', libWords s c = .ok s' ∧ Touch o (.words c) c o' ∧ Rep P s' o' := by
  unfold libWords
  by_cases hc : c.length > 2
  · rw [if_pos hc]
    have hd : (Dep.words (n := n) c).once = false := by simp [Dep.once]; omega
    exact ⟨_, _, rfl, .again hd, untracked_rep h hd _⟩
  · rw [if_neg hc]
    have hd : (Dep.words (n := n) c).once = true := by simp [Dep.once]; omega
    rcases find_of_mem h hd with ⟨x, k, h1, h2, h3⟩ | ⟨h1, h3⟩
    · rw [append_find h1]
      simp only [h2, ne_eq, reduceCtorEq, not_false_eq_true, if_true]
      obtain ⟨⟨d', f'⟩, hm', hd'⟩ := List.mem_map.1 h3
      simp only at hd'
      subst hd'
      obtain ⟨a, b, rfl⟩ := List.append_of_mem hm'
      obtain ⟨s', g1, g2⟩ := hoist_rep h hd h1
      exact ⟨s', _, g1, .known hd rfl, g2⟩
    · rw [append_new h1]
      simp only [ne_eq, not_true_eq_false, if_false]
      exact ⟨_, _, rfl, .new hd h3, new_rep h hd h1 _⟩

end Verif.LinkOrder
