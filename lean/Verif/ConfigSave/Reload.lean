import Verif.ConfigSave.Lemmas
import Verif.ConfigSave.Spec

/-!
# Saving the configuration: loading it again
-/

namespace Verif.ConfigSave

open Verif.Lookup (Val)

variable {α : Type}

/-- What is in project `i` itself. -/
theorem os_get (S : Setup α) {i : Nat} {r : Proj α} (h : S.projs[i]? = some r) :
    (loadAll S.projs)[i]? = some (own r ((loadAll S.projs).drop (i + 1))) := by
  rw [loadAll_get, h]; rfl

theorem os_get' (S : Setup α) {i : Nat} {r : Proj α} (h : S.projs[i]? = some r) :
    (loadAll S.reloaded)[i]? =
      some (own { r with file := S.newFile i r } ((loadAll S.reloaded).drop (i + 1))) := by
  rw [loadAll_get, reloaded_get, h]; rfl

theorem original_zero {S : Setup α} {i : Nat} {x : Val α × Bool}
    (h : (loadAll S.projs)[i]? = some (some x)) : S.original i = some (0, x) := by
  unfold Setup.original
  rw [nearest_some]
  refine ⟨by rw [List.getElem?_drop]; simpa using h, ?_⟩
  intro j hj; omega

theorem original_at {S : Setup α} {p i : Nat} {x : Val α × Bool}
    (h : S.original p = some (i, x)) : (loadAll S.projs)[p + i]? = some (some x) := by
  unfold Setup.original at h
  rw [nearest_some] at h
  have := h.1
  rwa [List.getElem?_drop] at this

theorem original_before {S : Setup α} {p i j : Nat} {x : Val α × Bool}
    (h : S.original p = some (i, x)) (hj : j < i) : (loadAll S.projs)[p + j]? = some none := by
  unfold Setup.original at h
  rw [nearest_some] at h
  have := h.2 j hj
  rwa [List.getElem?_drop] at this

theorem reload_here {S : Setup α} {i : Nat} {v : Val α} {d : Bool}
    (h : (loadAll S.reloaded)[i]? = some (some (v, d))) : S.reloadValue i = some v := by
  unfold Setup.reloadValue
  have : nearest ((loadAll S.reloaded).drop i) = some (0, (v, d)) := by
    rw [nearest_some]
    refine ⟨by rw [List.getElem?_drop]; simpa using h, ?_⟩
    intro j hj; omega
  rw [this]; rfl

theorem reload_next {S : Setup α} {i : Nat}
    (h : (loadAll S.reloaded)[i]? = some none) : S.reloadValue i = S.reloadValue (i + 1) := by
  unfold Setup.reloadValue
  obtain ⟨hlt, he⟩ := List.getElem?_eq_some_iff.mp h
  rw [List.drop_eq_getElem_cons hlt, he, nearest]
  cases nearest ((loadAll S.reloaded).drop (i + 1)) <;> rfl

theorem nearest_reload_none {S : Setup α} {i : Nat}
    (h : nearest ((loadAll S.reloaded).drop i) = none) : S.reloadValue i = none := by
  unfold Setup.reloadValue; rw [h]; rfl

theorem newFile_saved {S : Setup α} {i : Nat} {r : Proj α} {m : Mod} (hc : S.cfg i = true)
    (hm : r.mod = some m) : S.newFile i r = (S.saveLine true i r m).value := by
  unfold Setup.newFile
  rw [if_pos hc, hm]

theorem newFile_kept {S : Setup α} {i : Nat} {r : Proj α} (hc : S.cfg i = false) :
    S.newFile i r = r.file := by
  unfold Setup.newFile
  rw [if_neg (by simp [hc])]

/-- What is in the file is the value that was seen or the same as before. -/
theorem newFile_cases {S : Setup α} {i : Nat} {r : Proj α} :
    S.newFile i r = none ∨ (∃ l, S.look i = .found l ∧ S.newFile i r = some l.val) ∨
      (S.newFile i r = r.file ∧ (S.cfg i = false ∨ r.mod = none)) := by
  unfold Setup.newFile
  by_cases hc : S.cfg i = true
  · rw [if_pos hc]
    cases hm : r.mod with
    | none => exact .inr (.inr ⟨rfl, .inr rfl⟩)
    | some m =>
      simp only
      cases hs : S.saveLine true i r m with
      | fail => exact .inl rfl
      | skip => exact .inl rfl
      | line v =>
        obtain ⟨l, h1, h2⟩ := saveLine_val hs
        exact .inr (.inl ⟨l, h1, by rw [h2]; rfl⟩)
  · rw [if_neg hc]
    exact .inr (.inr ⟨rfl, .inl (by simpa using hc)⟩)

/-- If nothing is defined in the outer projects, then nothing is when loaded again. -/
theorem outer_none {S : Setup α} (hco : Coherent S) {r : Nat} {l : Look α}
    (hl : S.look r = .found l) (ho : l.over = false)
    (hn : nearest ((loadAll S.projs).drop (r + 1)) = none) :
    nearest ((loadAll S.reloaded).drop (r + 1)) = none := by
  rw [nearest_none] at hn ⊢
  intro k o hk
  rw [List.getElem?_drop] at hk
  have hlt : r + 1 + k < S.n := by
    have := (List.getElem?_eq_some_iff.mp hk).1
    rw [loadAll_length] at this
    have : S.reloaded.length = S.projs.length := by simp [Setup.reloaded]
    have : S.n = S.projs.length := rfl
    omega
  have hj : S.projs[r + 1 + k]? = some (S.projs[r + 1 + k]'hlt) := List.getElem?_eq_getElem hlt
  generalize hjr : S.projs[r + 1 + k]'hlt = jr at hj
  have h0 := os_get S hj
  have hown : own jr ((loadAll S.projs).drop (r + 1 + k + 1)) = none := by
    have := hn k _ (by rw [List.getElem?_drop]; exact h0)
    exact this
  have hfile := own_none hown
  have hout : nearest ((loadAll S.projs).drop (r + 1 + k + 1)) = none := by
    rw [nearest_none]
    intro j o' hj'
    rw [List.getElem?_drop] at hj'
    refine hn (k + 1 + j) o' ?_
    rw [List.getElem?_drop, ← hj']
    congr 1; omega
  have hnew : S.newFile (r + 1 + k) jr = none := by
    rcases newFile_cases (S := S) (i := r + 1 + k) (r := jr) with h | ⟨l', h1, h2⟩ | ⟨h, _⟩
    · exact h
    · exfalso
      by_cases ho' : l'.over = true
      · have := hco.mono r (r + 1 + k) l l' (by omega) hlt h1 ho' hl
        rw [ho] at this; cases this
      · have := hco.plain _ l' hlt h1 (by simpa using ho')
        have := original_at this
        have hb : (loadAll S.projs)[r + 1 + k + (l'.loc - (r + 1 + k))]? = _ := this
        have := hn (k + (l'.loc - (r + 1 + k))) (some (l'.val, l'.dflt))
          (by rw [List.getElem?_drop, ← hb]; congr 1; omega)
        cases this
    · rw [h, hfile]
  rw [os_get' S hj] at hk
  rw [← Option.some.inj hk]
  unfold own
  simp only [hnew]
  cases hu : jr.use with
  | none => rfl
  | some u =>
    simp only
    cases hd : u.dflt with
    | none => rfl
    | some d =>
      exfalso
      unfold own at hown
      simp [hfile, hu, hd, hout] at hown

/-- The value is there in the project it is from. -/
theorem home_value {S : Setup α} (hco : Coherent S) {i : Nat} {r : Proj α}
    (hr : S.projs[i]? = some r) {l : Look α} (hl : S.look i = .found l) (hloc : l.loc = i)
    (h : (l.over = false ∧ l.dflt = true) ∨
      (l.over = false ∧ S.cfg i = false) ∨
      (S.cfg i = true ∧ ∃ m sn f, r.mod = some m ∧ S.mark i r m = some (sn, some f) ∧
        S.omitted f l.val = false)) :
    S.reloadValue i = some l.val := by
  have hi : i < S.n := (List.getElem?_eq_some_iff.mp hr).1
  have hos := os_get' S hr
  -- If it was the default.
  have hdef : l.over = false → l.dflt = true → S.newFile i r = none →
      S.reloadValue i = some l.val := by
    intro ho hd hn
    have h1 := hco.plain i l hi hl ho
    have h2 := original_at h1
    rw [hloc, Nat.sub_self, Nat.add_zero, os_get S hr, hd] at h2
    obtain ⟨_, u, hu, hud, hw⟩ := own_default (Option.some.inj h2)
    refine reload_here (d := true) ?_
    rw [hos]
    unfold own
    simp only [hn, hu, hud]
    rw [if_pos]
    rcases hw with hw | hw
    · rw [outer_none hco hl ho hw]; rfl
    · rw [hw]; simp
  have hsome : ∀ w, S.newFile i r = some w → w = l.val → S.reloadValue i = some l.val := by
    intro w hw he
    refine reload_here (d := false) ?_
    rw [hos]
    rw [own_file (p := { r with file := S.newFile i r }) (v := w) (by exact hw), he]
  -- The old file.
  have hold : l.over = false → l.dflt = false → S.newFile i r = r.file →
      S.reloadValue i = some l.val := by
    intro ho hd hn
    have h1 := hco.plain i l hi hl ho
    have h2 := original_at h1
    rw [hloc, Nat.sub_self, Nat.add_zero, os_get S hr, hd] at h2
    have := own_not_default (Option.some.inj h2)
    exact hsome _ (hn.trans this) rfl
  have hdf : l.over = false → l.dflt = true → r.file = none := by
    intro ho hd
    have h1 := hco.plain i l hi hl ho
    have h2 := original_at h1
    rw [hloc, Nat.sub_self, Nat.add_zero, os_get S hr, hd] at h2
    exact (own_default (Option.some.inj h2)).1
  rcases h with ⟨ho, hd⟩ | ⟨ho, hc⟩ | ⟨hc, m, sn, f, hm, hk, hom⟩
  · rcases newFile_cases (S := S) (i := i) (r := r) with h | ⟨l', h1, h2⟩ | ⟨h, _⟩
    · exact hdef ho hd h
    · rw [hl] at h1
      injection h1 with h1
      exact hsome _ h2 (by rw [h1])
    · exact hdef ho hd (h.trans (hdf ho hd))
  · by_cases hd : l.dflt = true
    · exact hdef ho hd ((newFile_kept hc).trans (hdf ho hd))
    · exact hold ho (by simpa using hd) (newFile_kept hc)
  · have hs : S.saveLine true i r m = if Setup.skipDefault f l then .skip else .line l.val := by
      unfold Setup.saveLine
      rw [hk]
      simp only [hl, hom, Bool.false_eq_true, if_false]
      have : (true && l.loc != i) = false := by simp [hloc]
      rw [this]
      simp
    by_cases hsd : Setup.skipDefault f l = true
    · have hn : S.newFile i r = none := by
        rw [newFile_saved hc hm, hs, if_pos hsd]; rfl
      unfold Setup.skipDefault at hsd
      simp only [Bool.and_eq_true, Bool.not_eq_true'] at hsd
      exact hdef hsd.1.2 hsd.1.1 hn
    · refine hsome l.val ?_ rfl
      rw [newFile_saved hc hm, hs, if_neg hsd]; rfl

/-- What is in between does not change it. -/
theorem between {S : Setup α} (hco : Coherent S)
    (hmod : ∀ (i : Nat) (r : Proj α), S.projs[i]? = some r → S.cfg i = true → r.mod ≠ none)
    (hclosed : ∀ (i q : Nat) (rq : Proj α), S.cfg i = true → q < i → S.projs[q]? = some rq →
      rq.file ≠ none → S.cfg q = true)
    {r : Nat} {v : Val α} (hv : S.reloadValue r = some v) (hr : r < S.n) :
    ∀ (k p : Nat) (l : Look α), p + k = r → S.look p = .found l → l.val = v → r ≤ l.loc →
      (l.over = true → S.cfg r = true ∧ ∀ x ∈ S.projs, ∀ u, x.use = some u → u.defOvr = false) →
      S.reloadValue p = some v
  | 0, p, l, hk, _, _, _, _ => by
    have : p = r := by omega
    rw [this]; exact hv
  | k + 1, p, l, hk, hl, hlv, hle, ho => by
    have hp : p < S.n := by omega
    have hpr : S.projs[p]? = some (S.projs[p]'hp) := List.getElem?_eq_getElem hp
    generalize S.projs[p]'hp = rp at hpr
    obtain ⟨l', h1, h2, h3, h4⟩ := hco.same p (p + 1) l hl (by omega) (by omega) (by omega)
    have ih : S.reloadValue (p + 1) = some v :=
      between hco hmod hclosed hv hr k (p + 1) l' (by omega) h1 (h2.trans hlv)
        (by rw [h3]; exact hle) (fun h => ho (by rw [← h4]; exact h))
    -- Nothing is set here if not overridden.
    have hno : l.over = false → (loadAll S.projs)[p]? = some none := by
      intro h
      have := hco.plain p l hp hl h
      have := original_before this (j := 0) (by omega)
      simpa using this
    have hos := os_get S hpr
    have hos' := os_get' S hpr
    have hfile : rp.file = none ∨ (S.cfg p = true ∧ rp.mod ≠ none) := by
      by_cases hov : l.over = true
      · cases hf : rp.file with
        | none => exact .inl rfl
        | some w =>
          right
          have hc := hclosed r p rp (ho hov).1 (by omega) hpr (by rw [hf]; simp)
          exact ⟨hc, hmod p rp hpr hc⟩
      · left
        rw [hno (by simpa using hov)] at hos
        exact own_none (Option.some.inj hos).symm
    have hnew : S.newFile p rp = none ∨ S.newFile p rp = some v := by
      rcases newFile_cases (S := S) (i := p) (r := rp) with h | ⟨l2, g1, g2⟩ | ⟨h, g⟩
      · exact .inl h
      · right
        rw [hl] at g1; injection g1 with g1
        rw [g2, ← g1, hlv]
      · rcases hfile with hf | ⟨hf1, hf2⟩
        · left; rw [h, hf]
        · rcases g with g | g
          · rw [hf1] at g; cases g
          · exact absurd g hf2
    rcases hnew with hn | hn
    · have : (loadAll S.reloaded)[p]? = some none := by
        rw [hos']
        congr 1
        unfold own
        simp only [hn]
        cases hu : rp.use with
        | none => rfl
        | some u =>
          simp only
          cases hd : u.dflt with
          | none => rfl
          | some d =>
            simp only
            rw [if_neg]
            intro hc
            rw [Bool.or_eq_true] at hc
            rcases hc with hc | hc
            · rw [Option.isNone_iff_eq_none] at hc
              rw [nearest_reload_none hc] at ih; cases ih
            · by_cases hov : l.over = true
              · have := (ho hov).2 rp (List.mem_of_getElem? hpr) u hu
                rw [this] at hc; cases hc
              · have h0 := hno (by simpa using hov)
                rw [hos] at h0
                have hown := Option.some.inj h0
                have hf := own_none hown
                unfold own at hown
                simp [hf, hu, hd, hc] at hown
      rw [reload_next this]; exact ih
    · refine reload_here (d := false) ?_
      rw [hos', own_file (p := { rp with file := S.newFile p rp }) (v := v) (by exact hn)]

end Verif.ConfigSave
