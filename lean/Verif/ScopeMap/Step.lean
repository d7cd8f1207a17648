import Verif.ScopeMap.Lemmas

namespace Verif.ScopeMap

/-- The invariant: `C` are the directories that have a scope, `R` those that are project roots. -/
structure Inv (C R : Dir → Prop) (m : Map) : Prop where
  sorted : Sorted m.keys
  isScope : ∀ k, (m.ent k).out.isSome = true ↔ C k
  keyed : ∀ k, C k → k ∈ m.keys
  global : C []
  parent : ∀ k s, (m.ent k).out = some s → Innermost (fun b => C b ∧ b ≠ k) k s.parent
  root : ∀ k s, (m.ent k).out = some s → Innermost R k s.root
  rootScope : ∀ k, R k → C k

theorem Inv.none {C R : Dir → Prop} {m : Map} (h : Inv C R m) {k : Key} (hk : ¬ C k) :
    (m.ent k).out = none := by
  cases ho : (m.ent k).out with
  | none => rfl
  | some s => exact absurd ((h.isScope k).1 (by rw [ho]; rfl)) hk

theorem Inv.some {C R : Dir → Prop} {m : Map} (h : Inv C R m) {k : Key} (hk : C k) :
    ∃ s, (m.ent k).out = some s := by
  have := (h.isScope k).2 hk
  cases ho : (m.ent k).out with
  | none => rw [ho] at this; cases this
  | some s => exact ⟨s, rfl⟩

theorem emplace_keys (m : Map) (k : Key) : ∀ x, x ∈ (m.emplace k).keys ↔ x = k ∨ x ∈ m.keys := by
  intro x
  unfold Map.emplace
  split
  · rename_i h
    constructor
    · exact Or.inr
    · rintro (rfl | h')
      · exact h
      · exact h'
  · exact mem_insertKey

theorem emplace_sorted {m : Map} {k : Key} (h : Sorted m.keys) : Sorted (m.emplace k).keys := by
  unfold Map.emplace
  split
  · exact h
  · exact sorted_insertKey h

theorem emplace_ent_ne {m : Map} {k x : Key} (h : x ≠ k) : (m.emplace k).ent x = m.ent x := by
  unfold Map.emplace
  split
  · rfl
  · simp [h]

theorem emplace_ent_mem {m : Map} {k : Key} (h : k ∈ m.keys) : (m.emplace k).ent k = m.ent k := by
  unfold Map.emplace; rw [if_pos h]

theorem emplace_ent_not_mem {m : Map} {k : Key} (h : k ∉ m.keys) : (m.emplace k).ent k = {} := by
  unfold Map.emplace; rw [if_neg h]; simp

theorem Inv.emplace {C R : Dir → Prop} {m : Map} (h : Inv C R m) (k : Key) : Inv C R (m.emplace k) := by
  have out : ∀ x, ((m.emplace k).ent x).out = (m.ent x).out := by
    intro x
    by_cases hx : x = k
    · subst hx
      by_cases hm : x ∈ m.keys
      · rw [emplace_ent_mem hm]
      · rw [emplace_ent_not_mem hm, h.none (fun hc => hm (h.keyed x hc))]
    · rw [emplace_ent_ne hx]
  exact ⟨emplace_sorted h.sorted, fun x => by rw [out]; exact h.isScope x,
    fun x hx => (emplace_keys m k x).2 (Or.inr (h.keyed x hx)), h.global,
    fun x s hs => h.parent x s (by rw [← out]; exact hs),
    fun x s hs => h.root x s (by rw [← out]; exact hs), h.rootScope⟩

/-- The parent found for a new scope. -/
theorem find_parent {C R : Dir → Prop} {m : Map} (h : Inv C R m) {k : Key} (hk : ¬ C k)
    (hkm : k ∈ m.keys) (root : Bool) (m1 : Map)
    (hm1 : m1 = m.set k { m.ent k with out := some {} }) :
    ∃ p m2, m1.findParent k root = .ok (some p, m2) ∧
      Innermost C k (some p) ∧ m2 = m1.mapOut (m1.sub k).tail (adopted k root p (m1.rootOf p)) := by
  have hkeys : m1.keys = m.keys := by rw [hm1]; rfl
  have hent : ∀ x, x ≠ k → m1.ent x = m.ent x := by
    intro x hx; rw [hm1]; simp [Map.set, hx]
  obtain ⟨hsort, hmem⟩ := sub_spec (m := m1) (k := k) (by rw [hkeys]; exact h.sorted)
    (by rw [hkeys]; exact hkm)
  have hnd := sorted_nodup hsort
  have hkne : k ≠ [] := by rintro rfl; exact hk h.global
  unfold Map.findParent
  rcases split_first (fun x => (m1.ent x).out.isSome) (m1.sub k).tail with hno | ⟨A, x, B, e, hx, hA⟩
  · -- no scopes inside
    have hno' : ∀ x ∈ (m1.sub k).tail, (m1.ent x).out = none := by
      intro x hx
      have := hno x hx
      cases ho : (m1.ent x).out with
      | none => rfl
      | some s => rw [ho] at this; cases this
    have e1 : adoptAll k root (none, m1) (m1.sub k).tail = .ok (none, m1) := by
      have := adoptAll_skip (k := k) (root := root) (m1.sub k).tail [] none m1 hno'
      rw [List.append_nil] at this
      rw [this]; rfl
    rw [e1]
    simp only []
    have hsup := sup_spec m1 (fun x => (m1.ent x).out.isSome) k.dropLast
    unfold Map.findOut
    have hdk : ∀ b : Key, b <+: k.dropLast → b ≠ k := by
      rintro b hb rfl
      have := hb.length_le
      rw [List.length_dropLast] at this
      have : 0 < b.length := List.length_pos_iff.2 hkne
      omega
    have hcong : ∀ b, b <+: k.dropLast → ((b ∈ m1.keys ∧ (m1.ent b).out.isSome = true) ↔ C b) := by
      intro b hb
      rw [hent b (hdk b hb), hkeys, h.isScope]
      exact ⟨fun h => h.2, fun hc => ⟨h.keyed b hc, hc⟩⟩
    have hin := innermost_congr hcong hsup
    cases hs : m1.supIf (fun x => (m1.ent x).out.isSome) k.dropLast k.dropLast.length with
    | none => rw [hs] at hin; exact absurd List.nil_prefix (hin [] h.global)
    | some p =>
      rw [hs] at hin
      refine ⟨p, m1, rfl, ⟨hin.1, hin.2.1.trans (List.dropLast_prefix k), ?_⟩, ?_⟩
      · intro b hb hbk
        apply hin.2.2 b hb
        have hne : b ≠ k := fun e => hk (e ▸ hb)
        have hlt : b.length < k.length := by
          rcases Nat.lt_or_ge b.length k.length with h | h
          · exact h
          · exact absurd (hbk.eq_of_length_le h) hne
        exact List.prefix_of_prefix_length_le hbk (List.dropLast_prefix k)
          (by rw [List.length_dropLast]; omega)
      · -- nothing changed
        cases hmm : m1 with
        | mk keys ent =>
          rw [hmm] at hno'
          simp only [Map.mapOut]
          congr 1
          funext x
          by_cases hx : x ∈ (Map.sub ⟨keys, ent⟩ k).tail
          · rw [if_pos hx]
            have := hno' x hx
            cases hex : ent x with
            | mk o ss =>
              simp [hex] at this
              rw [this]; rfl
          · rw [if_neg hx]
  · -- the first scope inside
    have hA' : ∀ y ∈ A, (m1.ent y).out = none := by
      intro y hy
      have := hA y hy
      cases ho : (m1.ent y).out with
      | none => rfl
      | some s => rw [ho] at this; cases this
    obtain ⟨c, hc⟩ : ∃ c, (m1.ent x).out = some c := by
      cases ho : (m1.ent x).out with
      | none => rw [ho] at hx; cases hx
      | some s => exact ⟨s, rfl⟩
    have hxs := (hmem x).1 (by rw [e]; simp)
    have hcm : (m.ent x).out = some c := by rw [← hent x hxs.2.2]; exact hc
    have hpar := h.parent x c hcm
    have hxne : x ≠ [] := by
      rintro rfl
      exact hkne (List.prefix_nil.1 hxs.2.1)
    obtain ⟨p, hp⟩ : ∃ p, c.parent = some p := by
      cases hp : c.parent with
      | none => rw [hp] at hpar; exact absurd List.nil_prefix (hpar [] ⟨h.global, hxne.symm⟩)
      | some p => exact ⟨p, rfl⟩
    rw [hp] at hpar
    have hpk : p <+: k := by
      rcases prefix_comparable hpar.2.1 hxs.2.1 with hh | hh
      · exact hh
      · exfalso
        have hpne : p ≠ k := fun e => hk (e ▸ hpar.1.1)
        have hpm : p ∈ (m1.sub k).tail := (hmem p).2 ⟨by rw [hkeys]; exact h.keyed p hpar.1.1, hh, hpne⟩
        rw [e] at hpm
        rcases List.mem_append.1 hpm with hpa | hpb
        · have := hA' p hpa
          rw [hent p hpne, ] at this
          have h2 := (h.isScope p).2 hpar.1.1
          rw [this] at h2; cases h2
        · rcases List.mem_cons.1 hpb with rfl | hpb
          · exact hpar.1.2 rfl
          · rw [e, Sorted, List.pairwise_append] at hsort
            have h1 := (List.pairwise_cons.1 hsort.2.1).1 p hpb
            rw [not_before_prefix hpar.2.1] at h1; cases h1
    have hin : Innermost C k (Option.some p) := by
      refine ⟨hpar.1.1, hpk, ?_⟩
      intro b hb hbk
      refine hpar.2.2 b ⟨hb, ?_⟩ (hbk.trans hxs.2.1)
      rintro rfl
      exact hxs.2.2 (prefix_antisymm hbk hxs.2.1)
    have hpL : p ∉ (m1.sub k).tail := by
      intro hh
      have := (hmem p).1 hh
      exact this.2.2 (prefix_antisymm hpk this.2.1)
    have e1 : adoptAll k root (none, m1) (m1.sub k).tail =
        .ok (Option.some p, m1.mapOut (m1.sub k).tail (adopted k root p (m1.rootOf p))) := by
      rw [← adoptAll_some _ _ hnd hpL, e]
      exact adoptAll_first hA' hc hp
    rw [e1]
    exact ⟨p, _, rfl, hin, rfl⟩

/-- Creating a scope. -/
theorem insertOut_ok {C R : Dir → Prop} {m0 : Map} (h0 : Inv C R m0) (k : Key) (root : Bool) :
    ∃ m', m0.insertOut k root = .ok m' ∧
      Inv (fun b => C b ∨ b = k) (fun b => R b ∨ (root = true ∧ b = k)) m' ∧
      m'.keys = (m0.emplace k).keys ∧ ∀ x, (m'.ent x).srcs = ((m0.emplace k).ent x).srcs := by
  have h := h0.emplace k
  have hkm : k ∈ (m0.emplace k).keys := (emplace_keys m0 k k).2 (Or.inl rfl)
  unfold Map.insertOut
  generalize m0.emplace k = m at h hkm
  by_cases hk : C k
  · obtain ⟨s, hs⟩ := h.some hk
    have hroot := h.root k s hs
    simp only [hs]
    have hC : ∀ b, (C b ∨ b = k) ↔ C b := fun b => ⟨fun hh => hh.elim id (fun e => e ▸ hk), Or.inl⟩
    by_cases hup : root = true ∧ s.root ≠ some k
    · rw [if_pos hup]
      obtain ⟨hr, hsr⟩ := hup
      subst hr
      have hRk : ¬ R k := by
        intro hRk
        cases hro : s.root with
        | none => rw [hro] at hroot; exact hroot k hRk List.prefix_rfl
        | some a =>
          rw [hro] at hroot
          exact hsr (by rw [hro, prefix_antisymm hroot.2.1 (hroot.2.2 k hRk List.prefix_rfl)])
      obtain ⟨hsort, hmem⟩ := sub_spec h.sorted hkm
      rw [upgrade_fold _ _ (sorted_nodup hsort)]
      refine ⟨_, rfl, ?_, rfl, ?_⟩
      · have hout : ∀ x, x ≠ k → ∀ t, ((if x ∈ (m.sub k).tail then
              { m.ent x with out := (m.ent x).out.map fun c => if c.root = s.root then { c with root := some k } else c }
              else m.ent x).out = some t) → ∃ t0, (m.ent x).out = some t0 ∧ t0.parent = t.parent ∧
              t.root = if x ∈ (m.sub k).tail ∧ t0.root = s.root then some k else t0.root := by
          intro x hx t ht
          by_cases hxm : x ∈ (m.sub k).tail
          · rw [if_pos hxm] at ht
            simp only [Option.map_eq_some_iff] at ht
            obtain ⟨t0, ht0, rfl⟩ := ht
            refine ⟨t0, ht0, by split <;> rfl, ?_⟩
            by_cases hc : t0.root = s.root <;> simp [hxm, hc]
          · rw [if_neg hxm] at ht
            exact ⟨t, ht, rfl, by simp [hxm]⟩
        refine ⟨h.sorted, ?_, fun x hx => h.keyed x ((hC x).1 hx), Or.inl h.global, ?_, ?_, ?_⟩
        · intro x
          rw [hC, ← h.isScope x]
          simp only [Map.set, Map.mapOut]
          by_cases hx : x = k
          · subst hx; simp [hs]
          · by_cases hxm : x ∈ (m.sub k).tail <;> simp [hx, hxm]
        · intro x t ht
          simp only [Map.set, Map.mapOut] at ht
          by_cases hx : x = k
          · subst hx
            rw [if_pos rfl] at ht
            simp at ht; subst ht
            exact innermost_congr (fun b _ => by rw [hC]) (h.parent x s hs)
          · rw [if_neg hx] at ht
            obtain ⟨t0, ht0, hp, -⟩ := hout x hx t ht
            rw [← hp]
            exact innermost_congr (fun b _ => by rw [hC]) (h.parent x t0 ht0)
        · intro x t ht
          simp only [Map.set, Map.mapOut] at ht
          by_cases hx : x = k
          · subst hx
            rw [if_pos rfl] at ht
            simp at ht; subst ht
            exact ⟨Or.inr ⟨rfl, rfl⟩, List.prefix_rfl, fun b _ hb => hb⟩
          · rw [if_neg hx] at ht
            obtain ⟨t0, ht0, -, hrt⟩ := hout x hx t ht
            rw [hrt]
            have hr0 := h.root x t0 ht0
            by_cases hxm : x ∈ (m.sub k).tail
            · have := innermost_add hRk ((hmem x).1 hxm).2.1 hroot hr0
              simp only [hxm, true_and]
              exact innermost_congr (fun b _ => by simp) this
            · simp only [hxm, false_and, if_false]
              refine innermost_congr (fun b hb => ?_) hr0
              constructor
              · exact Or.inl
              · rintro (hh | ⟨-, rfl⟩)
                · exact hh
                · exact absurd ((hmem x).2 ⟨h.keyed x ((h.isScope x).1 (by rw [ht0]; rfl)), hb, hx⟩) hxm
        · rintro x (hx | ⟨-, rfl⟩)
          · exact Or.inl (h.rootScope x hx)
          · exact Or.inr rfl
      · intro x
        simp only [Map.set, Map.mapOut]
        by_cases hx : x = k
        · subst hx
          simp only [if_true]
          by_cases hxm : x ∈ (m.sub x).tail <;> simp [hxm]
        · by_cases hxm : x ∈ (m.sub k).tail <;> simp [hx, hxm]
    · rw [if_neg hup]
      refine ⟨m, rfl, ?_, rfl, fun _ => rfl⟩
      have hR : ∀ b, (R b ∨ (root = true ∧ b = k)) ↔ R b := by
        intro b
        refine ⟨?_, Or.inl⟩
        rintro (hh | ⟨hr, rfl⟩)
        · exact hh
        · have : s.root = some b := by
            apply Classical.byContradiction
            intro hne; exact hup ⟨hr, hne⟩
          rw [this] at hroot
          exact hroot.1
      exact ⟨h.sorted, fun x => by rw [hC]; exact h.isScope x, fun x hx => h.keyed x ((hC x).1 hx),
        Or.inl h.global, fun x t ht => innermost_congr (fun b _ => by rw [hC]) (h.parent x t ht),
        fun x t ht => innermost_congr (fun b _ => by rw [hR]) (h.root x t ht),
        fun x hx => Or.inl (h.rootScope x ((hR x).1 hx))⟩
  · -- a new scope
    have hkne : k ≠ [] := by rintro rfl; exact hk h.global
    simp only [h.none hk]
    have hlen : (m.set k { m.ent k with out := some {} }).keys.length > 1 := by
      show m.keys.length > 1
      have h1 := h.keyed [] h.global
      cases hm : m.keys with
      | nil => rw [hm] at h1; cases h1
      | cons a l =>
        cases l with
        | cons b l => simp
        | nil =>
          rw [hm] at h1 hkm
          simp at h1 hkm
          exact absurd (hkm.trans h1) hkne
    rw [if_pos hlen]
    obtain ⟨p, m2, e, hin, hm2⟩ := find_parent h hk hkm root (m.set k { m.ent k with out := some {} }) rfl
    simp only [] at e
    rw [e]
    simp only []
    generalize hm1 : m.set k { m.ent k with out := some {} } = m1 at *
    have hkeys : m1.keys = m.keys := by rw [← hm1]; rfl
    have hent : ∀ x, x ≠ k → m1.ent x = m.ent x := by
      intro x hx; rw [← hm1]; simp [Map.set, hx]
    obtain ⟨hsort, hmem⟩ := sub_spec (m := m1) (k := k) (by rw [hkeys]; exact h.sorted)
      (by rw [hkeys]; exact hkm)
    have hpk : p ≠ k := fun e => hk (e ▸ hin.1)
    have hpL : p ∉ (m1.sub k).tail := by
      intro hh
      have := (hmem p).1 hh
      exact this.2.2 (prefix_antisymm hin.2.1 this.2.1)
    have hrp1 : m1.rootOf p = m.rootOf p := by unfold Map.rootOf; rw [hent p hpk]
    have hrp2 : m2.rootOf p = m.rootOf p := by
      rw [← hrp1, hm2]; simp [Map.rootOf, Map.mapOut, hpL]
    obtain ⟨sp, hsp⟩ := h.some hin.1
    have hrk : Innermost R k (m.rootOf p) := by
      have hr := h.root p sp hsp
      have : m.rootOf p = sp.root := by simp [Map.rootOf, hsp]
      rw [this]
      cases hro : sp.root with
      | none =>
        rw [hro] at hr
        intro b hb hbk
        exact hr b hb (hin.2.2 b (h.rootScope b hb) hbk)
      | some a =>
        rw [hro] at hr
        exact ⟨hr.1, hr.2.1.trans hin.2.1, fun b hb hbk => hr.2.2 b hb (hin.2.2 b (h.rootScope b hb) hbk)⟩
    have hRk : ¬ R k := fun hh => hk (h.rootScope k hh)
    refine ⟨_, rfl, ?_, ?_, ?_⟩
    · have hout : ∀ x, x ≠ k → ∀ t, (m2.ent x).out = some t → ∃ t0, (m.ent x).out = some t0 ∧
          t.parent = (if x ∈ (m1.sub k).tail ∧ t0.parent = some p then some k else t0.parent) ∧
          t.root = (if x ∈ (m1.sub k).tail ∧ root = true ∧ t0.root = m.rootOf p then some k else t0.root) := by
        intro x hx t ht
        rw [hm2] at ht
        simp only [Map.mapOut, hent x hx] at ht
        by_cases hxm : x ∈ (m1.sub k).tail
        · rw [if_pos hxm] at ht
          simp only [Option.map_eq_some_iff] at ht
          obtain ⟨t0, ht0, rfl⟩ := ht
          refine ⟨t0, ht0, ?_, ?_⟩
          · simp only [adopted, hxm, true_and]
          · simp only [adopted, hxm, true_and, hrp1]
        · rw [if_neg hxm] at ht
          exact ⟨t, ht, by simp [hxm], by simp [hxm]⟩
      refine ⟨?_, ?_, ?_, Or.inl h.global, ?_, ?_, ?_⟩
      · show Sorted m2.keys
        rw [hm2]; show Sorted m1.keys; rw [hkeys]; exact h.sorted
      · intro x
        simp only [Map.set]
        by_cases hx : x = k
        · subst hx; simp
        · simp only [hx, if_false, or_false]
          rw [← h.isScope x, hm2]
          simp only [Map.mapOut, hent x hx]
          by_cases hxm : x ∈ (m1.sub k).tail <;> simp [hxm]
      · intro x hx
        show x ∈ m2.keys
        rw [hm2]; show x ∈ m1.keys; rw [hkeys]
        rcases hx with hx | rfl
        · exact h.keyed x hx
        · exact hkm
      · intro x t ht
        simp only [Map.set] at ht
        by_cases hx : x = k
        · subst hx
          rw [if_pos rfl] at ht
          simp at ht; subst ht
          refine ⟨⟨Or.inl hin.1, hpk⟩, hin.2.1, ?_⟩
          rintro b ⟨hb | hb, hne⟩ hbx
          · exact hin.2.2 b hb hbx
          · exact absurd hb hne
        · rw [if_neg hx] at ht
          obtain ⟨t0, ht0, hp, -⟩ := hout x hx t ht
          rw [hp]
          have h0 := h.parent x t0 ht0
          by_cases hxm : x ∈ (m1.sub k).tail
          · obtain ⟨-, hkx, hxk⟩ := (hmem x).1 hxm
            have hin' : Innermost (fun b => C b ∧ b ≠ x) k (some p) := by
              refine innermost_congr (fun b hb => ?_) hin
              refine ⟨fun hc => ⟨hc, ?_⟩, fun hc => hc.1⟩
              rintro rfl
              exact hxk (prefix_antisymm hb hkx)
            have := innermost_add (fun hh => hk hh.1) hkx hin' h0
            simp only [hxm, true_and]
            refine innermost_congr (fun b _ => ?_) this
            constructor
            · rintro (⟨h1, h2⟩ | rfl)
              · exact ⟨Or.inl h1, h2⟩
              · exact ⟨Or.inr rfl, Ne.symm hxk⟩
            · rintro ⟨h1 | h1, h2⟩
              · exact Or.inl ⟨h1, h2⟩
              · exact Or.inr h1
          · simp only [hxm, false_and, if_false]
            refine innermost_congr (fun b hb => ?_) h0
            constructor
            · rintro ⟨h1, h2⟩; exact ⟨Or.inl h1, h2⟩
            · rintro ⟨h1 | rfl, h2⟩
              · exact ⟨h1, h2⟩
              · exact absurd ((hmem x).2 ⟨by rw [hkeys]; exact h.keyed x ((h.isScope x).1 (by rw [ht0]; rfl)), hb, hx⟩) hxm
      · intro x t ht
        simp only [Map.set] at ht
        by_cases hx : x = k
        · subst hx
          rw [if_pos rfl] at ht
          simp at ht; subst ht
          cases root with
          | true =>
            simp only [if_true, true_and]
            exact ⟨Or.inr rfl, List.prefix_rfl, fun b _ hb => hb⟩
          | false =>
            simp only [Bool.false_eq_true, if_false, false_and, or_false]
            rw [hrp2]
            exact hrk
        · rw [if_neg hx] at ht
          obtain ⟨t0, ht0, -, hrt⟩ := hout x hx t ht
          rw [hrt]
          have h0 := h.root x t0 ht0
          cases root with
          | false => simpa using h0
          | true =>
            by_cases hxm : x ∈ (m1.sub k).tail
            · obtain ⟨-, hkx, hxk⟩ := (hmem x).1 hxm
              have := innermost_add hRk hkx hrk h0
              simp only [hxm, true_and]
              exact innermost_congr (fun b _ => by simp) this
            · simp only [hxm, false_and, if_false]
              refine innermost_congr (fun b hb => ?_) h0
              constructor
              · exact Or.inl
              · rintro (h1 | ⟨-, rfl⟩)
                · exact h1
                · exact absurd ((hmem x).2 ⟨by rw [hkeys]; exact h.keyed x ((h.isScope x).1 (by rw [ht0]; rfl)), hb, hx⟩) hxm
      · rintro x (hx | ⟨-, rfl⟩)
        · exact Or.inl (h.rootScope x hx)
        · exact Or.inr rfl
    · show m2.keys = m.keys
      rw [hm2]; exact hkeys
    · intro x
      have h1 : ∀ y, (m1.ent y).srcs = (m.ent y).srcs := by
        intro y
        rw [← hm1]
        by_cases hy : y = k
        · subst hy; simp [Map.set]
        · simp [Map.set, hy]
      have h2 : ∀ y, (m2.ent y).srcs = (m.ent y).srcs := by
        intro y
        rw [← h1 y, hm2]
        by_cases hy : y ∈ (m1.sub k).tail <;> simp [Map.mapOut, hy]
      by_cases hx : x = k
      · subst hx; simp [Map.set, h2]
      · simp [Map.set, hx, h2]

theorem insertSrc_inv {C R : Dir → Prop} {m : Map} (h0 : Inv C R m) (s k : Key) :
    Inv C R (m.insertSrc s k) := by
  have h := h0.emplace k
  unfold Map.insertSrc
  generalize m.emplace k = m at h
  have out : ∀ x, ((m.set k { m.ent k with srcs := (m.ent k).srcs ++ [s] }).ent x).out = (m.ent x).out := by
    intro x
    by_cases hx : x = k
    · subst hx; simp [Map.set]
    · simp [Map.set, hx]
  exact ⟨h.sorted, fun x => by rw [out]; exact h.isScope x, h.keyed, h.global,
    fun x t ht => h.parent x t (by rw [← out]; exact ht),
    fun x t ht => h.root x t (by rw [← out]; exact ht), h.rootScope⟩

end Verif.ScopeMap
