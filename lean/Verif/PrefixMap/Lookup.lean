import Verif.PrefixMap.Lemmas

namespace Verif.PrefixMap

/-- The entries of a key. -/
def entries (m : Map) (p : Dir) : List (Dir × Val) := m.filter fun e => decide (e.1 = p)

theorem entries_nil_iff (opts : List Opt) (p : Dir) :
    entries (build opts) p = [] ↔ ∀ o ∈ opts, ∀ n, ¬ Leads o p n := by
  have hv : entries (build opts) p = [] ↔ view (build opts) p = [] := by
    unfold entries view; simp
  rw [hv, view_build]
  constructor
  · intro h o ho n hl
    by_cases hp : p = []
    · subst hp
      have h1 := find_prefixless (fun _ => true) opts
      rw [h] at h1
      have := (pick_closest (fun _ => true) [] opts).2 (by rw [← h1]; rfl) o ho n hl
      cases this
    · rw [absorb_single p hp] at h
      have h2 : opts.foldl (pick (fun _ => true) p) none = none := by
        cases hx : opts.foldl (pick (fun _ => true) p) none with
        | none => rfl
        | some v => rw [hx] at h; cases h
      have := (pick_closest (fun _ => true) p opts).2 h2 o ho n hl
      cases this
  · intro h
    clear hv
    have : ∀ vs, opts.foldl (absorb p) vs = vs := by
      induction opts with
      | nil => intro vs; rfl
      | cons o opts ih =>
        intro vs
        have hg : gives o p = none := by
          cases hg : gives o p with
          | none => rfl
          | some n => exact absurd ((gives_iff o p n).mp hg) (h o (by simp) n)
        rw [List.foldl_cons, ih (fun o' ho' => h o' (by simp [ho']))]
        unfold absorb; rw [hg]
    exact this []

theorem sup_spec (m : Map) : ∀ (k : Nat) (d : Dir), d.length = k →
    (∃ p, p ≠ [] ∧ p <+: d ∧ entries m p ≠ [] ∧ supRange m k d = entries m p ∧
      ∀ q, q <+: d → p.length < q.length → entries m q = []) ∨
    (supRange m k d = entries m [] ∧ ∀ q, q <+: d → q ≠ [] → entries m q = []) := by
  intro k
  induction k with
  | zero =>
    intro d hd
    have : d = [] := List.length_eq_zero_iff.mp hd
    subst this
    right
    exact ⟨rfl, fun q hq hn => absurd (List.prefix_nil.mp hq) hn⟩
  | succ k ih =>
    intro d hd
    rw [supRange]
    by_cases he : (m.filter fun e => decide (e.1 = d)).isEmpty = true
    · rw [if_pos he]
      have hed : entries m d = [] := List.isEmpty_iff.mp he
      have hle : ∀ q, q <+: d → q ≠ d → q <+: d.dropLast := fun q h1 h2 => isPrefix_dropLast h1 h2
      rcases ih d.dropLast (by simp [hd]) with ⟨p, h1, h2, h3, h4, h5⟩ | ⟨h1, h2⟩
      · left
        refine ⟨p, h1, h2.trans (dropLast_isPrefix d), h3, h4, fun q hq hl => ?_⟩
        by_cases hqd : q = d
        · rw [hqd]; exact hed
        · exact h5 q (hle q hq hqd) hl
      · right
        refine ⟨h1, fun q hq hn => ?_⟩
        by_cases hqd : q = d
        · rw [hqd]; exact hed
        · exact h2 q (hle q hq hqd) hn
    · rw [if_neg he]
      left
      refine ⟨d, ?_, List.prefix_refl d, ?_, rfl, ?_⟩
      · intro h; rw [h] at hd; cases hd
      · intro h; exact he (List.isEmpty_iff.mpr h)
      · intro q hq hl; have := hq.length_le; omega

/-- Whether the value of a key is the one. -/
def foundVal (decl new : Dir → String → Bool) (d : Dir) (f : String) (p : Dir) (D : Dir) : Bool :=
  if p = [] then decl (D ++ d) f else decl (D ++ d) f || new (D ++ d) f

theorem find_entries (decl new : Dir → String → Bool) (m : Map) (d : Dir) (f : String) (p : Dir) :
    ((entries m p).find? (found decl new d f)).map (fun e => e.2.dir) =
      ((view m p).find? (fun v => foundVal decl new d f p v.dir)).map Val.dir := by
  unfold entries view
  induction m with
  | nil => rfl
  | cons e m ih =>
    rw [List.filter_cons]
    by_cases he : e.1 = p
    · simp only [he, decide_true, if_true, List.map_cons, List.find?_cons]
      have : found decl new d f e = foundVal decl new d f p e.2.dir := by
        unfold found foundVal; rw [he]
      rw [this]
      cases foundVal decl new d f p e.2.dir with
      | true => rfl
      | false => exact ih
    · simp only [he, decide_false, if_false, Bool.false_eq_true]; exact ih

theorem same_prefix {p q d : Dir} (hp : p <+: d) (hq : q <+: d) (h : p.length = q.length) : p = q := by
  obtain ⟨r, hr⟩ := hp
  obtain ⟨r', hr'⟩ := hq
  rw [← hr] at hr'
  exact (List.append_inj hr' h.symm).1.symm

theorem closest_true {opts : List Opt} {p D n} :
    Closest (fun D => (fun _ : Dir => true) D = true) opts p D n ↔
      Closest (fun _ => True) opts p D n := by
  unfold Closest; simp

theorem lookup_iff (decl new : Dir → String → Bool) (opts : List Opt) (d : Dir) (f : String)
    (D : Dir) : lookup decl new (build opts) d f = some D ↔ Mapped decl new opts d f D := by
  unfold lookup
  rcases sup_spec (build opts) d.length d rfl with ⟨p, h1, h2, h3, h4, h5⟩ | ⟨h1, h2⟩
  · rw [h4, find_entries, view_build, absorb_single p h1]
    have hbest := pick_closest (fun _ => true) p opts
    have hlong : ∀ q, q <+: d → p.length < q.length → ∀ o ∈ opts, ∀ n, ¬ Leads o q n :=
      fun q hq hl => (entries_nil_iff opts q).mp (h5 q hq hl)
    cases hx : opts.foldl (pick (fun _ => true) p) none with
    | none =>
      exfalso
      refine h3 ((entries_nil_iff opts p).mpr fun o ho n hl => ?_)
      have := hbest.2 hx o ho n hl; cases this
    | some v =>
      have hc := closest_true.mp (hbest.1 v hx)
      have hfv : foundVal decl new d f p v.dir = (decl (v.dir ++ d) f || new (v.dir ++ d) f) := by
        unfold foundVal; rw [if_neg h1]
      simp only [Option.toList, List.find?_cons, List.find?_nil, hfv]
      constructor
      · intro h
        cases hb : (decl (v.dir ++ d) f || new (v.dir ++ d) f) with
        | true =>
          rw [hb] at h
          simp only [Option.map_some, Option.some.injEq] at h
          subst h
          exact .prefixed h1 h2 hlong hc (by simpa using hb)
        | false => rw [hb] at h; cases h
      · intro h
        cases h with
        | @prefixed p' n k1 k2 k3 k4 k5 =>
          have hpp : p = p' := by
            have e1 : ¬ p.length < p'.length := by
              intro hl
              obtain ⟨pre, o, post, g1, _, _, g4, _⟩ := k4
              exact hlong p' k2 hl o (by rw [g1]; simp) n g4
            have e2 : ¬ p'.length < p.length := by
              intro hl
              obtain ⟨pre, o, post, g1, _, _, g4, _⟩ := hc
              exact k3 p h2 hl o (by rw [g1]; simp) _ g4
            exact same_prefix h2 k2 (by omega)
          subst hpp
          have hD := closest_unique hc k4
          rw [hD]
          have : (decl (D ++ d) f || new (D ++ d) f) = true := by simpa using k5
          rw [this]; simp [hD]
        | prefixless k1 k2 =>
          exfalso
          obtain ⟨pre, o, post, g1, _, _, g4, _⟩ := hc
          exact k1 p h2 h1 o (by rw [g1]; simp) _ g4
  · rw [h1, find_entries, view_build]
    have hfv : (fun v : Val => foundVal decl new d f [] v.dir) = fun v => decl (v.dir ++ d) f := by
      funext v; unfold foundVal; simp
    rw [hfv, find_prefixless (fun D => decl (D ++ d) f)]
    have hbest := pick_closest (fun D => decl (D ++ d) f) [] opts
    have hnone : ∀ q, q <+: d → q ≠ [] → ∀ o ∈ opts, ∀ n, ¬ Leads o q n :=
      fun q hq hn => (entries_nil_iff opts q).mp (h2 q hq hn)
    constructor
    · intro h
      cases hx : opts.foldl (pick (fun D => decl (D ++ d) f) []) none with
      | none => rw [hx] at h; cases h
      | some v =>
        rw [hx] at h
        simp only [Option.map_some, Option.some.injEq] at h
        subst h
        exact .prefixless hnone (hbest.1 v hx)
    · intro h
      cases h with
      | @prefixed p n k1 k2 k3 k4 k5 =>
        exfalso
        obtain ⟨pre, o, post, g1, _, _, g4, _⟩ := k4
        exact hnone p k2 k1 o (by rw [g1]; simp) _ g4
      | prefixless k1 k2 =>
        cases hx : opts.foldl (pick (fun D => decl (D ++ d) f) []) none with
        | none =>
          exfalso
          obtain ⟨pre, o, post, g1, g2, g3, g4, _⟩ := k2
          have := hbest.2 hx o (by rw [g1]; simp) _ g4
          rw [g2, g3] at this; cases this
        | some v =>
          rw [closest_unique (hbest.1 v hx) k2 |>.symm]; rfl

/-! Remapping -/

/-- What is in the map: of include directories next to each other. -/
def Paired (dirs : List (Option Dir)) (k v : Dir) : Prop :=
  ∃ pre post, dirs = pre ++ some v :: some k :: post

theorem candidate_eq {scopeOf : Dir → Option Base} {d : Dir} {b diff}
    (h : candidate scopeOf d = some (b, diff)) : scopeOf d = some b ∧ d = b.out ++ diff := by
  unfold candidate at h
  cases hs : scopeOf d with
  | none => rw [hs] at h; cases h
  | some b' =>
    rw [hs] at h
    dsimp only at h
    split at h
    · rename_i hp
      cases h
      obtain ⟨r, hr⟩ := List.isPrefixOf_iff_prefix.mp hp
      exact ⟨rfl, by rw [← hr, List.drop_left]⟩
    · cases h

theorem emplace_mem {m : List (Dir × Dir)} {k v : Dir} {e : Dir × Dir} (h : e ∈ emplace m k v) :
    e ∈ m ∨ e = (k, v) := by
  unfold emplace at h; split at h
  · exact .inl h
  · simpa using h

theorem next_inv (scopeOf : Dir → Option Base) (dirs : List (Option Dir)) :
    (∀ k v, (k, v) ∈ (dirs.foldl (next scopeOf) ⟨[], none⟩).map →
      Paired dirs k v ∧ ∃ b diff, scopeOf v = some b ∧ v = b.out ++ diff ∧ b.src <+: k ∧
        (diff = [] ∨ k = b.src ++ diff)) ∧
    (∀ b diff, (dirs.foldl (next scopeOf) ⟨[], none⟩).prev = some (b, diff) →
      scopeOf (b.out ++ diff) = some b ∧ ∃ pre, dirs = pre ++ [some (b.out ++ diff)]) := by
  induction h : dirs.length generalizing dirs with
  | zero =>
    have : dirs = [] := List.length_eq_zero_iff.mp h
    subst this; simp
  | succ n ih =>
    rcases List.eq_nil_or_concat dirs with rfl | ⟨init, x, rfl⟩
    · simp at h
    rw [List.concat_eq_append] at h ⊢
    obtain ⟨ih1, ih2⟩ := ih init (by simpa using h)
    rw [List.foldl_append, List.foldl_cons, List.foldl_nil]
    generalize init.foldl (next scopeOf) ⟨[], none⟩ = st at *
    have hext : ∀ k v, Paired init k v → Paired (init ++ [x]) k v := by
      rintro k v ⟨pre, post, hp⟩
      exact ⟨pre, post ++ [x], by rw [hp]; simp⟩
    have hkeep : ∀ k v, (k, v) ∈ st.map → Paired (init ++ [x]) k v ∧ ∃ b diff,
        scopeOf v = some b ∧ v = b.out ++ diff ∧ b.src <+: k ∧ (diff = [] ∨ k = b.src ++ diff) :=
      fun k v hkv => ⟨hext k v (ih1 k v hkv).1, (ih1 k v hkv).2⟩
    cases x with
    | none => exact ⟨hkeep, by intro b diff h; cases h⟩
    | some d =>
      have hcand : ∀ b diff, candidate scopeOf d = some (b, diff) →
          scopeOf (b.out ++ diff) = some b ∧
          ∃ pre, init ++ [some d] = pre ++ [some (b.out ++ diff)] := by
        intro b diff hc
        obtain ⟨h1, h2⟩ := candidate_eq hc
        exact ⟨by rw [← h2]; exact h1, init, by rw [← h2]⟩
      unfold next
      cases hp : st.prev with
      | none => exact ⟨hkeep, hcand⟩
      | some bd =>
        obtain ⟨b, diff⟩ := bd
        dsimp only
        split
        · rename_i hpair
          refine ⟨?_, by intro b diff h; cases h⟩
          intro k v hkv
          rcases emplace_mem hkv with hkv | hkv
          · exact hkeep k v hkv
          · simp only [Prod.mk.injEq] at hkv
            obtain ⟨rfl, rfl⟩ := hkv
            obtain ⟨h1, pre, h2⟩ := ih2 b diff hp
            refine ⟨⟨pre, [], by rw [h2]; simp⟩, b, diff, h1, rfl, ?_⟩
            unfold isPair at hpair
            simp only [Bool.and_eq_true, Bool.or_eq_true, decide_eq_true_eq] at hpair
            have hsp := List.isPrefixOf_iff_prefix.mp hpair.1
            refine ⟨hsp, hpair.2.imp id fun h => ?_⟩
            obtain ⟨r, hr⟩ := hsp
            rw [← hr, List.drop_left] at h
            rw [← h, hr]
        · exact ⟨hkeep, hcand⟩

theorem supFind_spec (m : List (Dir × Dir)) : ∀ (k : Nat) (d : Dir) {e : Dir × Dir}, d.length = k →
    supFind m k d = some e →
    e ∈ m ∧ e.1 <+: d ∧ ∀ e' ∈ m, e'.1 <+: d → e'.1.length ≤ e.1.length := by
  intro k
  induction k with
  | zero =>
    intro d e hd h
    have : d = [] := List.length_eq_zero_iff.mp hd
    subst this
    have h1 := List.mem_of_find?_eq_some h
    have h2 := List.find?_some h
    simp only [decide_eq_true_eq] at h2
    refine ⟨h1, by rw [h2]; exact List.prefix_refl _, fun e' _ h' => ?_⟩
    rw [List.prefix_nil.mp h']; simp
  | succ k ih =>
    intro d e hd h
    rw [supFind] at h
    cases hf : m.find? (fun e => decide (e.1 = d)) with
    | some e' =>
      rw [hf] at h; cases h
      have h1 := List.mem_of_find?_eq_some hf
      have h2 := List.find?_some hf
      simp only [decide_eq_true_eq] at h2
      exact ⟨h1, by rw [h2]; exact List.prefix_refl _, fun e' _ h' => by rw [h2]; exact h'.length_le⟩
    | none =>
      rw [hf] at h
      obtain ⟨h1, h2, h3⟩ := ih d.dropLast (by simp [hd]) h
      refine ⟨h1, h2.trans (dropLast_isPrefix d), fun e' he' hp => ?_⟩
      by_cases hn : e'.1 = d
      · have := List.find?_eq_none.mp hf e' he'
        simp [hn] at this
      · exact h3 e' he' (isPrefix_dropLast hp hn)

end Verif.PrefixMap
