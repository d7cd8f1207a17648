import Verif.Import.Model

/-! # Importation: lemmas -/

namespace Verif.Import

/-- What is made of the value of a variable. -/
def valueOf (opt : Bool) (v : Option Path) (exe : Bool) : Except Err (Option Path) :=
  match v with
  | none => if opt then .ok none else .error .nullValue
  | some p =>
    if p.empty then .error .emptyPath
    else if !exe || p.dir || p != ⟨false, ["false".toList], false⟩ then .ok (some p)
    else if opt then .ok none
    else .error .nullValue

theorem lookupPath_none {e : Env} {opt : Bool} {v : Str} {x : Bool} (h : e.cfg v = none) :
    lookupPath e opt v x = .ok none := by
  unfold lookupPath; rw [h]

theorem lookupPath_some {e : Env} {opt : Bool} {v : Str} {x : Bool} {w : Option Path}
    (h : e.cfg v = some w) : lookupPath e opt v x = (valueOf opt w x).map some := by
  unfold lookupPath valueOf; rw [h]
  cases w with
  | none => cases opt <;> rfl
  | some p =>
    dsimp only
    split
    · rfl
    · split
      · rfl
      · cases opt <;> rfl

theorem typeVar_eq (l : Lib) (p n t : Str) :
    ("config.import.".toList ++ l.varName p) ++ '.' :: (l.sanitize n ++ '.' :: l.sanitize t) =
      typeVar l p n t := by
  unfold typeVar nameVar projVar
  rw [List.append_assoc _ ('.' :: l.sanitize n)]
  rfl

/-- Whether a target is a tool is what is checked. -/
theorem isTool_iff (l : Lib) (p : Str) (t : Tgt) :
    (t.type == "exe".toList &&
      (l.varName p).map l.lower == (l.sanitize t.value).map l.lower) = true ↔ IsTool l p t := by
  rw [Bool.and_eq_true, beq_iff_eq, beq_iff_eq]
  exact Iff.rfl

theorem orElse_map {r : Except Err (Option Path)} {k : Except Err (Option (Option Path))} :
    orElse (r.map some) k = r.map some := by
  cases r <;> rfl

theorem lookupTool_none {e : Env} {opt : Bool} {p : Str} {t : Tgt}
    (h : IsTool e.lib p t → e.cfg (toolVar e.lib p) = none) : lookupTool e opt p t = .ok none := by
  unfold lookupTool
  by_cases ht : IsTool e.lib p t
  · rw [if_pos ((isTool_iff _ _ _).2 ht)]
    exact lookupPath_none (h ht)
  · rw [if_neg (fun hh => ht ((isTool_iff _ _ _).1 hh))]

theorem typed_iff (t : Tgt) : (!t.type.isEmpty) = true ↔ t.type ≠ [] := by
  cases t.type <;> simp

/-- The lookup of the variables of a target, if one is defined. -/
theorem lookupTarget_says {e : Env} {opt : Bool} {p : Str} {t : Tgt} {v : Option Path} {x : Bool}
    (h : Says e p t v x) : lookupTarget e opt p t = (valueOf opt v x).map some := by
  unfold lookupTarget
  dsimp only
  rw [typeVar_eq]
  cases h with
  | tool ht hv =>
    have hne : t.type ≠ [] := by rw [ht.1]; decide
    have : lookupTool e opt p t = (valueOf opt v true).map some := by
      unfold lookupTool
      rw [if_pos ((isTool_iff _ _ _).2 ht)]
      exact lookupPath_some hv
    rw [if_pos ((typed_iff t).2 hne), this, orElse_map, orElse_map]
  | type hne ht hv =>
    have hx : decide (t.type = "exe".toList) = (t.type == "exe".toList) := by
      rw [Bool.eq_iff_iff, beq_iff_eq, decide_eq_true_iff]
    rw [hx, if_pos ((typed_iff t).2 hne), lookupTool_none ht, lookupPath_some hv]
    show orElse ((valueOf opt v _).map some) _ = _
    rw [orElse_map]
  | name ht hty hv =>
    have hn : lookupPath e opt (("config.import.".toList ++ e.lib.varName p) ++
        '.' :: e.lib.sanitize t.value) false = (valueOf opt v false).map some :=
      lookupPath_some hv
    rw [hn]
    by_cases hne : t.type ≠ []
    · rw [if_pos ((typed_iff t).2 hne), lookupTool_none ht, lookupPath_none (hty hne)]
      rfl
    · rw [if_neg (fun hh => hne ((typed_iff t).1 hh))]
      rfl

/-- If none is, nothing is found. -/
theorem lookupTarget_none {e : Env} {opt : Bool} {p : Str} {t : Tgt}
    (h : ∀ v x, ¬ Says e p t v x) : lookupTarget e opt p t = .ok none := by
  have h1 : IsTool e.lib p t → e.cfg (toolVar e.lib p) = none := by
    intro ht
    cases hc : e.cfg (toolVar e.lib p) with
    | none => rfl
    | some v => exact absurd (.tool ht hc) (h v true)
  have h2 : t.type ≠ [] → e.cfg (typeVar e.lib p t.value t.type) = none := by
    intro hne
    cases hc : e.cfg (typeVar e.lib p t.value t.type) with
    | none => rfl
    | some v => exact absurd (.type hne h1 hc) (h v _)
  have h3 : e.cfg (nameVar e.lib p t.value) = none := by
    cases hc : e.cfg (nameVar e.lib p t.value) with
    | none => rfl
    | some v => exact absurd (.name h1 h2 hc) (h v _)
  unfold lookupTarget
  dsimp only
  rw [typeVar_eq]
  have hn : lookupPath e opt (("config.import.".toList ++ e.lib.varName p) ++
      '.' :: e.lib.sanitize t.value) false = .ok none := lookupPath_none h3
  rw [hn]
  by_cases hne : t.type ≠ []
  · rw [if_pos ((typed_iff t).2 hne), lookupTool_none h1, lookupPath_none (h2 hne)]
    rfl
  · rw [if_neg (fun hh => hne ((typed_iff t).1 hh))]
    rfl

/-! ## The search -/

/-- What is found from a project on, `i` outwards from the importing one. -/
theorem searchRoots_spec {l : Lib} {p : Str} : ∀ (roots : List Root) (i : Nat) (own : Bool),
    (own = true ↔ i = 0) →
    match searchRoots l p own roots with
    | .ok (some d) => ∃ j r, roots[j]? = some r ∧ Provides l p (i + j) r d ∧
        ∀ k q, k < j → roots[k]? = some q → q.amalgamated = true ∧ ∀ d', ¬ Provides l p (i + k) q d'
    | .ok none => ∃ j r, roots[j]? = some r ∧ r.amalgamated = false ∧
        (∀ k q, k < j → roots[k]? = some q → q.amalgamated = true) ∧
        ∀ k q, k ≤ j → roots[k]? = some q → ∀ d', ¬ Provides l p (i + k) q d'
    | .error x => x = .assertion ∧ ∀ r ∈ roots, r.amalgamated = true := by
  intro roots
  induction roots with
  | nil => intro i own _; simp [searchRoots]
  | cons r rest ih =>
    intro i own ho
    rw [searchRoots]
    by_cases h1 : (!own && l.same r.name p) = true
    · rw [if_pos h1]
      dsimp only
      rw [Bool.and_eq_true] at h1
      refine ⟨0, r, rfl, ?_, by intro k q hk; omega⟩
      have hi : i ≠ 0 := by
        intro hi
        have := ho.2 hi
        rw [this] at h1
        cases h1.1
      show Provides l p i r _
      unfold Provides
      rw [if_pos ⟨hi, h1.2⟩]
    · rw [if_neg h1]
      have hnp : ¬ (i ≠ 0 ∧ l.same r.name p = true) := by
        rintro ⟨hi, hs⟩
        apply h1
        rw [Bool.and_eq_true]
        refine ⟨?_, hs⟩
        cases own with
        | true => exact absurd (ho.1 rfl) hi
        | false => rfl
      cases hf : r.subs.find? (fun s => l.same s.1 p) with
      | some s =>
        dsimp only
        refine ⟨0, r, rfl, ?_, by intro k q hk; omega⟩
        show Provides l p i r _
        unfold Provides
        rw [if_neg hnp]
        exact ⟨s, List.mem_of_find?_eq_some hf, by simpa using List.find?_some hf, rfl⟩
      | none =>
        dsimp only
        have hno : ∀ d', ¬ Provides l p i r d' := by
          intro d'
          unfold Provides
          rw [if_neg hnp]
          rintro ⟨s, hs, hs2, _⟩
          have := List.find?_eq_none.1 hf s hs
          exact this hs2
        by_cases ha : r.amalgamated = true
        · rw [if_pos ha]
          have := ih (i + 1) false ⟨(fun h => by cases h), (fun h => by omega)⟩
          cases hr : searchRoots l p false rest with
          | error x =>
            rw [hr] at this
            dsimp only at this ⊢
            refine ⟨this.1, ?_⟩
            intro q hq
            rcases List.mem_cons.1 hq with rfl | hq
            · exact ha
            · exact this.2 q hq
          | ok o =>
            rw [hr] at this
            cases o with
            | some d =>
              dsimp only at this ⊢
              obtain ⟨j, q, hq, hp, hk⟩ := this
              refine ⟨j + 1, q, hq, by rw [Nat.add_assoc, Nat.add_comm 1 j] at hp; exact hp, ?_⟩
              intro k q' hk' hq'
              cases k with
              | zero =>
                simp only [List.getElem?_cons_zero, Option.some.injEq] at hq'
                subst hq'
                exact ⟨ha, hno⟩
              | succ k =>
                have := hk k q' (by omega) hq'
                rw [Nat.add_assoc, Nat.add_comm 1 k] at this
                exact this
            | none =>
              dsimp only at this ⊢
              obtain ⟨j, q, hq, hp, hk, hk2⟩ := this
              refine ⟨j + 1, q, hq, hp, ?_, ?_⟩
              · intro k q' hk' hq'
                cases k with
                | zero =>
                  simp only [List.getElem?_cons_zero, Option.some.injEq] at hq'
                  subst hq'
                  exact ha
                | succ k => exact hk k q' (by omega) hq'
              · intro k q' hk' hq'
                cases k with
                | zero =>
                  simp only [List.getElem?_cons_zero, Option.some.injEq] at hq'
                  subst hq'
                  exact hno
                | succ k =>
                  have := hk2 k q' (by omega) hq'
                  rw [Nat.add_assoc, Nat.add_comm 1 k] at this
                  exact this
        · rw [if_neg ha]
          dsimp only
          refine ⟨0, r, rfl, by simpa using ha, by intro k q hk; omega, ?_⟩
          intro k q hk hq
          have : k = 0 := by omega
          subst this
          simp only [List.getElem?_cons_zero, Option.some.injEq] at hq
          subst hq
          exact hno

/-! ## The names of variables -/

theorem dot_split : ∀ (a a' b b' : Str), '.' ∉ a → '.' ∉ a' →
    a ++ '.' :: b = a' ++ '.' :: b' → a = a' ∧ b = b' := by
  intro a
  induction a with
  | nil =>
    intro a' b b' _ h' e
    cases a' with
    | nil => simpa using e
    | cons c a' =>
      simp only [List.nil_append, List.cons_append, List.cons.injEq] at e
      exact absurd (by rw [← e.1]; simp) h'
  | cons c a ih =>
    intro a' b b' h h' e
    cases a' with
    | nil =>
      simp only [List.nil_append, List.cons_append, List.cons.injEq] at e
      exact absurd (by rw [e.1]; simp) h
    | cons c' a' =>
      simp only [List.cons_append, List.cons.injEq] at e
      obtain ⟨rfl, e⟩ := e
      have := ih a' b b' (fun hh => h (by simp [hh])) (fun hh => h' (by simp [hh])) e
      exact ⟨by rw [this.1], this.2⟩

/-- The components of the name of a variable, after `config.`. -/
theorem noDot_split (a b c : Str) (h : '.' ∉ a) : a ≠ b ++ '.' :: c := by
  rintro rfl; simp at h

/-! ## Subprojects -/

theorem same_comm {l : Lib} (hl : l.Ok) (a b : Str) : l.same a b = l.same b a := by
  rw [Bool.eq_iff_iff]; exact ⟨hl.symm a b, hl.symm b a⟩

/-- Two keys that are the same have the same directory. -/
def Uniq (l : Lib) (m : List (Str × List Str)) : Prop :=
  ∀ x ∈ m, ∀ y ∈ m, l.same x.1 y.1 = true → x.2 = y.2

/-- Everything in one map is in the other up to the name being the same. -/
def Cover (l : Lib) (H : Str → List Str → Prop) (m : List (Str × List Str)) : Prop :=
  (∀ x ∈ m, H x.1 x.2) ∧ ∀ k d, H k d → ∃ x ∈ m, l.same x.1 k = true ∧ x.2 = d

theorem emplace_ok {l : Lib} (hl : l.Ok) {m m' : List (Str × List Str)} {k : Str} {d : List Str}
    (h : emplace l m k d = .ok m') {H : Str → List Str → Prop} (hu : Uniq l m) (hc : Cover l H m) :
    Uniq l m' ∧ Cover l (fun k' d' => H k' d' ∨ (k' = k ∧ d' = d)) m' := by
  unfold emplace at h
  cases hf : m.find? (fun s => l.same s.1 k) with
  | none =>
    rw [hf] at h
    cases h
    have hno : ∀ x ∈ m, l.same x.1 k = false := by
      intro x hx
      have := List.find?_eq_none.1 hf x hx
      simpa using this
    refine ⟨?_, ?_, ?_⟩
    · intro x hx y hy hxy
      rcases List.mem_append.1 hx with hx | hx <;> rcases List.mem_append.1 hy with hy | hy
      · exact hu x hx y hy hxy
      · simp only [List.mem_singleton] at hy; subst hy
        rw [hno x hx] at hxy; cases hxy
      · simp only [List.mem_singleton] at hx; subst hx
        rw [same_comm hl, hno y hy] at hxy; cases hxy
      · simp only [List.mem_singleton] at hx hy; subst hx; subst hy; rfl
    · intro x hx
      rcases List.mem_append.1 hx with hx | hx
      · exact .inl (hc.1 x hx)
      · simp only [List.mem_singleton] at hx; subst hx; exact .inr ⟨rfl, rfl⟩
    · rintro k' d' (h | ⟨rfl, rfl⟩)
      · obtain ⟨x, hx, h1, h2⟩ := hc.2 k' d' h
        exact ⟨x, by simp [hx], h1, h2⟩
      · exact ⟨(k', d'), by simp, hl.refl _, rfl⟩
  | some s =>
    rw [hf] at h
    dsimp only at h
    by_cases hd : d ≠ s.2
    · rw [if_pos hd] at h; cases h
    · rw [if_neg hd] at h
      cases h
      have hd : d = s.2 := by simpa using hd
      refine ⟨hu, ?_, ?_⟩
      · intro x hx; exact .inl (hc.1 x hx)
      · rintro k' d' (h | ⟨rfl, rfl⟩)
        · exact hc.2 k' d' h
        · exact ⟨s, List.mem_of_find?_eq_some hf, by simpa using List.find?_some hf, hd.symm⟩

theorem emplace_err {l : Lib} {m : List (Str × List Str)} {k : Str} {d : List Str} {x : Err}
    (h : emplace l m k d = .error x) :
    x = .duplicateSubproject ∧ ∃ s ∈ m, l.same s.1 k = true ∧ s.2 ≠ d := by
  unfold emplace at h
  cases hf : m.find? (fun s => l.same s.1 k) with
  | none => rw [hf] at h; cases h
  | some s =>
    rw [hf] at h
    dsimp only at h
    by_cases hd : d ≠ s.2
    · rw [if_pos hd] at h
      cases h
      exact ⟨rfl, s, List.mem_of_find?_eq_some hf, by simpa using List.find?_some hf, hd.symm⟩
    · rw [if_neg hd] at h; cases h

/-- What an entry says. -/
def Adds (out : Bool) (es : List Entry) (k : Str) (d : List Str) : Prop :=
  ∃ e ∈ es, ∃ n, e.Is out (some n) ∧ k = keyOf n e.leaf ∧ d = [e.leaf]

/-- The cases of an entry. -/
theorem entry_cases (e : Entry) (out : Bool) :
    (∀ n, ¬ e.Is out n) ∧ (e.leaf.isEmpty || e.leaf.head? == some '.' || !e.isDir) = true ∨
    ((e.leaf.isEmpty || e.leaf.head? == some '.') = false ∧ e.isDir = true ∧
      ∀ n, e.Is out n ↔ (if out && e.outRoot.isSome then e.outRoot else e.srcRoot) = some n) := by
  unfold Entry.Is
  by_cases h1 : (e.leaf.isEmpty || e.leaf.head? == some '.' || !e.isDir) = true
  · left
    refine ⟨?_, h1⟩
    rintro n ⟨a, b, c, _⟩
    simp [a, b, c] at h1
  · right
    have h1' : (e.leaf.isEmpty || e.leaf.head? == some '.') = false ∧ e.isDir = true := by
      revert h1
      cases (e.leaf.isEmpty || e.leaf.head? == some '.') <;> cases e.isDir <;> simp
    refine ⟨h1'.1, h1'.2, ?_⟩
    have h2 : e.leaf ≠ [] ∧ e.leaf.head? ≠ some '.' := by
      have := h1'.1
      rw [Bool.or_eq_false_iff] at this
      refine ⟨?_, ?_⟩
      · intro h; rw [h] at this; cases this.1
      · intro h; rw [h] at this; simp at this
    intro n
    cases out with
    | false => simp [h1'.2, h2]
    | true =>
      cases ho : e.outRoot with
      | none => simp [h1'.2, h2]
      | some x => simp [h1'.2, h2]

theorem findSubprojects_ok {l : Lib} (hl : l.Ok) {out : Bool} : ∀ (es : List Entry)
    (m m' : List (Str × List Str)) (H : Str → List Str → Prop),
    findSubprojects l out es m = .ok m' → Uniq l m → Cover l H m →
    Uniq l m' ∧ Cover l (fun k d => H k d ∨ Adds out es k d) m' ∧ ∀ e ∈ es, ¬ e.Is out none := by
  intro es
  induction es with
  | nil =>
    intro m m' H h hu hc
    cases h
    refine ⟨hu, ⟨fun x hx => .inl (hc.1 x hx), ?_⟩, by simp⟩
    rintro k d (h | ⟨e, he, _⟩)
    · exact hc.2 k d h
    · cases he
  | cons e es ih =>
    intro m m' H h hu hc
    have skip : (∀ n, ¬ e.Is out (some n)) → (¬ e.Is out none) →
        findSubprojects l out es m = .ok m' →
        Uniq l m' ∧ Cover l (fun k d => H k d ∨ Adds out (e :: es) k d) m' ∧
          ∀ e' ∈ e :: es, ¬ e'.Is out none := by
      intro hn hb hh
      obtain ⟨a, b, c⟩ := ih m m' H hh hu hc
      refine ⟨a, ⟨?_, ?_⟩, ?_⟩
      · intro x hx
        rcases b.1 x hx with h | ⟨e', he', r⟩
        · exact .inl h
        · exact .inr ⟨e', by simp [he'], r⟩
      · rintro k d (h | ⟨e', he', n, hi, r⟩)
        · exact b.2 k d (.inl h)
        · rcases List.mem_cons.1 he' with rfl | he'
          · exact absurd hi (hn n)
          · exact b.2 k d (.inr ⟨e', he', n, hi, r⟩)
      · intro e' he'
        rcases List.mem_cons.1 he' with rfl | he'
        · exact hb
        · exact c e' he'
    rw [findSubprojects] at h
    rcases entry_cases e out with ⟨hn, hs⟩ | ⟨h1, h2, hi⟩
    · refine skip (fun n => hn _) (hn _) ?_
      by_cases ha : (e.leaf.isEmpty || e.leaf.head? == some '.') = true
      · rw [if_pos ha] at h; exact h
      · rw [if_neg ha] at h
        have hd : (!e.isDir) = true := by
          rw [Bool.or_eq_true] at hs
          exact hs.resolve_left ha
        rw [if_pos hd] at h; exact h
    · rw [h1, h2] at h
      simp only [Bool.false_eq_true, if_false, Bool.not_true] at h
      cases hx : (if (out && e.outRoot.isSome) = true then e.outRoot else e.srcRoot) with
      | none =>
        rw [hx] at h
        refine skip (fun n hh => ?_) (fun hh => ?_) h
        · rw [hi, hx] at hh; cases hh
        · rw [hi, hx] at hh; cases hh
      | some y =>
        rw [hx] at h
        cases y with
        | none => cases h
        | some n =>
          dsimp only at h
          have hk : (if n.isEmpty = true then e.leaf ++ ['/'] else n) = keyOf n e.leaf := by
            unfold keyOf
            cases n <;> rfl
          rw [hk] at h
          cases he : emplace l m (keyOf n e.leaf) [e.leaf] with
          | error x => rw [he] at h; cases h
          | ok m1 =>
            rw [he] at h
            obtain ⟨u1, c1⟩ := emplace_ok hl he hu hc
            obtain ⟨a, b, c⟩ := ih m1 m' _ h u1 c1
            have hin : e.Is out (some n) := (hi _).2 hx
            refine ⟨a, ⟨?_, ?_⟩, ?_⟩
            · intro x hx
              rcases b.1 x hx with (h | ⟨h, h'⟩) | ⟨e', he', r⟩
              · exact .inl h
              · exact .inr ⟨e, by simp, n, hin, h, h'⟩
              · exact .inr ⟨e', by simp [he'], r⟩
            · rintro k d (h | ⟨e', he', n', hi', hk', hd'⟩)
              · exact b.2 k d (.inl (.inl h))
              · rcases List.mem_cons.1 he' with rfl | he'
                · have := (hi _).1 hi'
                  rw [hx] at this
                  cases this
                  exact b.2 k d (.inl (.inr ⟨hk', hd'⟩))
                · exact b.2 k d (.inr ⟨e', he', n', hi', hk', hd'⟩)
            · intro e' he'
              rcases List.mem_cons.1 he' with rfl | he'
              · intro hh
                rw [hi, hx] at hh
                cases hh
              · exact c e' he'

theorem findSubprojects_err {l : Lib} (hl : l.Ok) {out : Bool} : ∀ (es : List Entry)
    (m : List (Str × List Str)) (H : Str → List Str → Prop) (x : Err),
    findSubprojects l out es m = .error x → Uniq l m → Cover l H m →
    (x = .badSubproject ∧ ∃ e ∈ es, e.Is out none) ∨
    (x = .duplicateSubproject ∧ ∃ k d k' d', (H k d ∨ Adds out es k d) ∧ Adds out es k' d' ∧
      l.same k k' = true ∧ d ≠ d') := by
  intro es
  induction es with
  | nil => intro m H x h; cases h
  | cons e es ih =>
    intro m H x h hu hc
    have skip : findSubprojects l out es m = .error x →
        (x = .badSubproject ∧ ∃ e' ∈ e :: es, e'.Is out none) ∨
        (x = .duplicateSubproject ∧ ∃ k d k' d', (H k d ∨ Adds out (e :: es) k d) ∧
          Adds out (e :: es) k' d' ∧ l.same k k' = true ∧ d ≠ d') := by
      intro hh
      rcases ih m H x hh hu hc with ⟨rfl, e', he', hi⟩ | ⟨rfl, k, d, k', d', h1, ⟨e2, he2, r2⟩, h3⟩
      · exact .inl ⟨rfl, e', by simp [he'], hi⟩
      · refine .inr ⟨rfl, k, d, k', d', ?_, ⟨e2, by simp [he2], r2⟩, h3⟩
        rcases h1 with h1 | ⟨e1, he1, r1⟩
        · exact .inl h1
        · exact .inr ⟨e1, by simp [he1], r1⟩
    rw [findSubprojects] at h
    rcases entry_cases e out with ⟨hn, hs⟩ | ⟨h1, h2, hi⟩
    · apply skip
      by_cases ha : (e.leaf.isEmpty || e.leaf.head? == some '.') = true
      · rw [if_pos ha] at h; exact h
      · rw [if_neg ha] at h
        have hd : (!e.isDir) = true := by
          rw [Bool.or_eq_true] at hs
          exact hs.resolve_left ha
        rw [if_pos hd] at h; exact h
    · rw [h1, h2] at h
      simp only [Bool.false_eq_true, if_false, Bool.not_true] at h
      cases hx : (if (out && e.outRoot.isSome) = true then e.outRoot else e.srcRoot) with
      | none => rw [hx] at h; exact skip h
      | some y =>
        rw [hx] at h
        cases y with
        | none => cases h; exact .inl ⟨rfl, e, by simp, (hi _).2 hx⟩
        | some n =>
          dsimp only at h
          have hk : (if n.isEmpty = true then e.leaf ++ ['/'] else n) = keyOf n e.leaf := by
            unfold keyOf
            cases n <;> rfl
          rw [hk] at h
          have hadd : Adds out (e :: es) (keyOf n e.leaf) [e.leaf] :=
            ⟨e, by simp, n, (hi _).2 hx, rfl, rfl⟩
          cases he : emplace l m (keyOf n e.leaf) [e.leaf] with
          | error y =>
            rw [he] at h
            cases h
            obtain ⟨rfl, s, hs, hs1, hs2⟩ := emplace_err he
            exact .inr ⟨rfl, s.1, s.2, _, _, .inl (hc.1 s hs), hadd, hs1, hs2⟩
          | ok m1 =>
            rw [he] at h
            obtain ⟨u1, c1⟩ := emplace_ok hl he hu hc
            rcases ih m1 _ x h u1 c1 with ⟨rfl, e', he', hi'⟩ |
              ⟨rfl, k, d, k', d', h1, ⟨e2, he2, r2⟩, h3⟩
            · exact .inl ⟨rfl, e', by simp [he'], hi'⟩
            · refine .inr ⟨rfl, k, d, k', d', ?_, ⟨e2, by simp [he2], r2⟩, h3⟩
              rcases h1 with (h1 | ⟨rfl, rfl⟩) | ⟨e1, he1, r1⟩
              · exact .inl h1
              · exact .inr hadd
              · exact .inr ⟨e1, by simp [he1], r1⟩

end Verif.Import
