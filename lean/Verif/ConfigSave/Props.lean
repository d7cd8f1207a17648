import Verif.ConfigSave.Reload
import Verif.Override.Props

/-!
# C46: a saved configuration is the one that was configured

`save_reload_partial` says that if a project's variable is saved, then, loading the projects
again without the command line overrides, it has the value that it had when configuring.
What is missing is false of the code: see the witnesses at the end.
-/

namespace Verif.ConfigSave

open Verif.Lookup (Val)
open Verif.Override

variable {α : Type}

/-- A project's variable that is to be saved. -/
structure Saved (S : Setup α) (p : Nat) (r : Proj α) (m : Mod) (f : Flags) : Prop where
  proj : S.projs[p]? = some r
  cfg : S.cfg p = true
  mod : r.mod = some m
  mark : ∃ sn, S.mark p r m = some (sn, some f)

/-- What is assumed of the projects that are involved in seeing `l`. -/
structure Involved (S : Setup α) (l : Look α) : Prop where
  /-- A project that is configured has the config module. -/
  hasMod : ∀ (i : Nat) (r : Proj α), S.projs[i]? = some r → S.cfg i = true → r.mod ≠ none
  /-- Those already configured are configured. -/
  done : ∀ p i, S.done p i = true → S.cfg i = true
  /-- If a project is configured, then so are its subprojects that have values of their own. -/
  closed : ∀ (i q : Nat) (r : Proj α), S.cfg i = true → q < i → S.projs[q]? = some r →
    r.file ≠ none → S.cfg q = true
  /-- Nobody uses it without saving. -/
  saved : ∀ r ∈ S.projs, ∀ u, r.use = some u → u.flags ≠ none
  /-- Nobody omits the value. -/
  kept : ∀ r ∈ S.projs, ∀ u f, r.use = some u → u.flags = some f → S.omitted f l.val = false
  /-- Nobody overrides inherited values with their default. -/
  inherit : l.over = true → ∀ r ∈ S.projs, ∀ u, r.use = some u → u.defOvr = false
  /-- It is not one of the special variables. -/
  ordinary : S.special = false
  /-- Nobody is told to save global overrides of unused variables. -/
  persist : l.loc = S.n → ∀ r ∈ S.projs, ∀ m, r.mod = some m → m.persist ≠ some true

theorem Involved.congr {S : Setup α} {l l' : Look α} (h : Involved S l) (h1 : l'.val = l.val)
    (h2 : l'.loc = l.loc) (h3 : l'.over = l.over) : Involved S l' where
  hasMod := h.hasMod
  done := h.done
  closed := h.closed
  saved := h.saved
  kept := by rw [h1]; exact h.kept
  inherit := by rw [h3]; exact h.inherit
  ordinary := h.ordinary
  persist := by rw [h2]; exact h.persist

theorem marked_use {S : Setup α} {i : Nat} {r : Proj α} {x : Nat × Option Flags}
    (h : S.marked i r = some x) : ∃ u, r.use = some u ∧ x = (u.sname, u.flags) := by
  unfold Setup.marked at h
  split at h
  · cases h
  · rename_i u hu
    split at h
    · injection h with h
      exact ⟨u, hu, h.symm⟩
    · cases h

theorem omitted_default {S : Setup α} (v : Val α) : S.omitted {} v = false := by
  unfold Setup.omitted
  split <;> rfl

/-- The mark of an outer project that saves the variable. -/
theorem saves_mark {S : Setup α} {l : Look α} (hi : Involved S l) {sn i : Nat} {r : Proj α}
    (hr : S.projs[i]? = some r) (hs : S.saves sn i r = true)
    (hh : S.here i = true ∨ l.loc = S.n) :
    ∃ m sn' f, r.mod = some m ∧ S.mark i r m = some (sn', some f) ∧
      S.omitted f l.val = false := by
  unfold Setup.saves at hs
  cases hm : r.mod with
  | none => rw [hm] at hs; cases hs
  | some m =>
    rw [hm] at hs
    simp only [Bool.and_eq_true, Bool.or_eq_true] at hs
    have hmem := List.mem_of_getElem? hr
    cases hk : S.marked i r with
    | some x =>
      obtain ⟨u, hu, hx⟩ := marked_use hk
      obtain ⟨f, hf⟩ := Option.ne_none_iff_exists'.mp (hi.saved r hmem u hu)
      refine ⟨m, u.sname, f, rfl, ?_, hi.kept r hmem u f hu hf⟩
      unfold Setup.mark
      rw [hk, hx, hf]
    | none =>
      have hp : m.persist = some true := by
        rcases hs.2 with h | h
        · rw [hk] at h; cases h
        · simpa using h
      rcases hh with hh | hh
      · refine ⟨m, m.unusedName, {}, rfl, ?_, omitted_default _⟩
        unfold Setup.mark
        rw [hk]
        simp [hh, hi.ordinary, hp]
      · exact absurd hp (hi.persist hh r hmem m hm)

theorem save_reload_aux {S : Setup α} (hco : Coherent S) :
    ∀ (k p : Nat) (r : Proj α) (m : Mod) (f : Flags) (l : Look α), p + k = S.n →
      Saved S p r m f → S.look p = .found l → S.omitted f l.val = false → Involved S l →
      S.reloadValue p = some l.val := by
  intro k
  induction k using Nat.strongRecOn with
  | ind k IH =>
  intro p r m f l hk hs hl hom hi
  have hp : p < S.n := (List.getElem?_eq_some_iff.mp hs.proj).1
  obtain ⟨h1, h2⟩ := hco.range p l hp hl
  obtain ⟨sn, hmark⟩ := hs.mark
  by_cases hloc : l.loc = p
  · exact home_value hco hs.proj hl hloc (.inr (.inr ⟨hs.cfg, m, sn, f, hs.mod, hmark, hom⟩))
  · have hlt : p < l.loc := by omega
    have hne := findInherited_some (S := S) (sname := sn) hlt h2
    have hline : S.saveLine true p r m =
        match S.findInherited p sn l with
        | none => .fail
        | some true => .skip
        | some false => if Setup.skipDefault f l then .skip else .line l.val := by
      unfold Setup.saveLine
      rw [hmark]
      simp only [hl, hom, Bool.false_eq_true, if_false]
      have : (true && l.loc != p) = true := by simp [hloc]
      rw [this]
      rfl
    have hos := os_get' S hs.proj
    have hnew := newFile_saved hs.cfg hs.mod
    rw [hline] at hnew
    cases hf : S.findInherited p sn l with
    | none => exact absurd hf hne
    | some b =>
      cases b with
      | false =>
        rw [hf] at hnew
        by_cases hsd : Setup.skipDefault f l = true
        · -- The default of an outer project.
          unfold Setup.skipDefault at hsd
          simp only [Bool.and_eq_true, Bool.not_eq_true'] at hsd
          obtain ⟨⟨hd, ho⟩, _⟩ := hsd
          have horg := hco.plain p l hp hl ho
          have hat := original_at horg
          rw [show p + (l.loc - p) = l.loc by omega] at hat
          have hln : l.loc < S.n := by
            have := (List.getElem?_eq_some_iff.mp hat).1
            rwa [loadAll_length] at this
          obtain ⟨l', g1, g2, g3, g4⟩ := hco.same p l.loc l hl (by omega) (Nat.le_refl _) hln
          have horg' := hco.plain l.loc l' hln g1 (by rw [g4, ho])
          have hd' : l'.dflt = true := by
            have := original_at horg'
            rw [show l.loc + (l'.loc - l.loc) = l.loc by omega, hat] at this
            simp only [Option.some.injEq, Prod.mk.injEq] at this
            rw [← this.2, hd]
          have hv := home_value hco (List.getElem?_eq_getElem hln) g1 g3
            (.inl ⟨by rw [g4, ho], hd'⟩)
          rw [g2] at hv
          exact between hco hi.hasMod hi.closed hv hln (l.loc - p) p l (by omega) hl rfl
            (Nat.le_refl _) (fun h => by rw [ho] at h; cases h)
        · simp only [hsd, if_false] at hnew
          refine reload_here (d := false) ?_
          rw [hos, own_file (p := { r with file := S.newFile p r }) (v := l.val) (by exact hnew)]
      | true =>
        obtain ⟨ri, i, hpi, hri, hsv, hli, hdone⟩ := findInherited_true hf
        have hin : i < S.n := (List.getElem?_eq_some_iff.mp hri).1
        have hile : i ≤ l.loc := by omega
        obtain ⟨l', g1, g2, g3, g4⟩ := hco.same p i l hl (by omega) hile hin
        have hi' := hi.congr g2 g3 g4
        have hv : S.reloadValue i = some l.val ∧ (l.over = true → S.cfg i = true) := by
          rcases hli with hg | hg
          · -- Global.
            have hc := hi.done p i (hdone (.inl hg))
            obtain ⟨m', sn', f', q1, q2, q3⟩ := saves_mark hi hri hsv (.inr hg)
            refine ⟨?_, fun _ => hc⟩
            rw [← g2]
            exact IH (S.n - i) (by omega) i ri m' f' l' (by omega) ⟨hri, hc, q1, sn', q2⟩ g1
              (by rw [g2]; exact q3) hi'
          · refine ⟨?_, fun h => hi.done p i (hdone (.inr h))⟩
            rw [← g2]
            refine home_value hco hri g1 (g3.trans hg) ?_
            by_cases hc : S.cfg i = true
            · right; right
              obtain ⟨m', sn', f', q1, q2, q3⟩ := saves_mark hi hri hsv
                (.inl (by rw [← hg]; exact hco.here p l hp hl (by omega)))
              exact ⟨hc, m', sn', f', q1, q2, by rw [g2]; exact q3⟩
            · right; left
              refine ⟨?_, by simpa using hc⟩
              cases ho : l'.over with
              | false => rfl
              | true => exact absurd (hi.done p i (hdone (.inr (by rw [← g4, ho])))) hc
        exact between hco hi.hasMod hi.closed hv.1 hin (i - p) p l (by omega) hl rfl hile
          (fun h => ⟨hv.2 h, hi.inherit h⟩)

/-- **C46 (partial).** Loading the projects again without the command line overrides, the
variable that has been saved (by this project or as inherited from an amalgamation) has the
value that it had when configuring, whatever combination of the values in the files, defaults
and overrides it came from. Missing: what `Involved` and `Coherent` rule out, which is wrong in
the code. -/
theorem save_reload_partial {S : Setup α} (hco : Coherent S) {p : Nat} {r : Proj α} {m : Mod}
    {f : Flags} {l : Look α} (hs : Saved S p r m f) (hl : S.look p = .found l)
    (hom : S.omitted f l.val = false) (hi : Involved S l) :
    S.reloadValue p = some l.val :=
  save_reload_aux hco (S.n - p) p r m f l
    (by have := (List.getElem?_eq_some_iff.mp hs.proj).1; simp only [Setup.n]; omega)
    hs hl hom hi

/-- **C46.** A variable that is used by a project that is being configured and that has a
value is to be saved. -/
theorem used_is_saved {S : Setup α} {p : Nat} {r : Proj α} {m : Mod} {u : Use α} {f : Flags}
    {l : Look α} (hp : S.projs[p]? = some r) (hc : S.cfg p = true) (hm : r.mod = some m)
    (hu : r.use = some u) (hf : u.flags = some f) (hl : S.look p = .found l) :
    Saved S p r m f := by
  refine ⟨hp, hc, hm, u.sname, ?_⟩
  unfold Setup.mark Setup.marked
  simp only [hu]
  have : S.defined p = true := by unfold Setup.defined; rw [hl]
  rw [this, Bool.or_true, if_pos rfl, hf]

/-- **C46.** So is an unused one if config.config.persist says so. -/
theorem persisted_is_saved {S : Setup α} {p : Nat} {r : Proj α} {m : Mod} {v : Val α}
    (hp : S.projs[p]? = some r) (hc : S.cfg p = true) (hm : r.mod = some m)
    (hu : r.use = none) (hv : r.file = some v) (hs : S.special = false)
    (hpe : m.persist = some true) : Saved S p r m {} := by
  refine ⟨hp, hc, hm, m.unusedName, ?_⟩
  have hh : S.here p = true := by
    unfold Setup.here
    rw [os_get S hp, own_file hv]; rfl
  unfold Setup.mark Setup.marked
  simp [hu, hh, hs, hpe]

/-- **C46.** Otherwise an unused one is dropped. -/
theorem unused_is_dropped {S : Setup α} {p : Nat} {r : Proj α} {m : Mod}
    (hc : S.cfg p = true) (hm : r.mod = some m)
    (hu : r.use = none) (hpe : m.persist ≠ some true) : S.newFile p r = none := by
  rw [newFile_saved hc hm]
  unfold Setup.saveLine Setup.mark Setup.marked
  have : (m.persist == some true) = false := by simpa using hpe
  simp [hu, this, Line.value]

/-! ## When the lookups are coherent -/

theorem original_next {S : Setup α} {p q i : Nat} {x : Val α × Bool}
    (h : S.original p = some (i, x)) (h1 : p ≤ q) (h2 : q ≤ p + i) :
    S.original q = some (p + i - q, x) := by
  unfold Setup.original
  rw [nearest_some]
  constructor
  · rw [List.getElem?_drop, show q + (p + i - q) = p + i by omega]
    exact original_at h
  · intro j hj
    rw [List.getElem?_drop]
    have := original_before h (j := q + j - p) (by omega)
    rwa [show p + (q + j - p) = q + j by omega] at this

theorem original_lt {S : Setup α} {p i : Nat} {x : Val α × Bool}
    (h : S.original p = some (i, x)) : p + i < S.n := by
  have := (List.getElem?_eq_some_iff.mp (original_at h)).1
  rwa [loadAll_length] at this

theorem original_none {S : Setup α} {p q : Nat} (h : S.original p = none) (h1 : p ≤ q) :
    S.original q = none := by
  unfold Setup.original at h ⊢
  rw [nearest_none] at h ⊢
  intro j o ho
  rw [List.getElem?_drop] at ho
  refine h (q - p + j) o ?_
  rw [List.getElem?_drop, show p + (q - p + j) = q + j by omega]
  exact ho

theorem original_here {S : Setup α} {p i : Nat} {x : Val α × Bool}
    (h : S.original p = some (i, x)) : S.here (p + i) = true := by
  unfold Setup.here
  rw [original_at h]
  rfl

/-- **C46.** Without overrides. -/
theorem coherent_no_overrides {S : Setup α} (h : S.ovs = []) : Coherent S := by
  have hlook : ∀ p, S.look p = match S.original p with
      | none => .undef
      | some (i, v, d) => .found ⟨v, p + i, d, false⟩ := by
    intro p; unfold Setup.look; rw [h]; rfl
  have key : ∀ p l, S.look p = .found l → l.over = false ∧ p ≤ l.loc ∧
      S.original p = some (l.loc - p, l.val, l.dflt) := by
    intro p l hl
    rw [hlook] at hl
    cases ho : S.original p with
    | none => rw [ho] at hl; cases hl
    | some x =>
      obtain ⟨i, v, d⟩ := x
      rw [ho] at hl
      injection hl with hl
      subst hl
      refine ⟨rfl, Nat.le_add_right _ _, ?_⟩
      simp
  constructor
  · intro p _ hc
    rw [hlook] at hc
    cases ho : S.original p with
    | none => rw [ho] at hc; cases hc
    | some x => rw [ho] at hc; cases hc
  · intro p l _ hl
    obtain ⟨_, h1, h2⟩ := key p l hl
    have := original_lt h2
    exact ⟨h1, by omega⟩
  · intro p q l hl hpq hq _
    obtain ⟨h0, h1, h2⟩ := key p l hl
    have := original_next h2 hpq (by omega)
    refine ⟨⟨l.val, l.loc, l.dflt, false⟩, ?_, rfl, rfl, h0.symm⟩
    rw [hlook, this]
    simp only
    rw [show q + (p + (l.loc - p) - q) = l.loc by omega]
  · intro p l _ hl _
    exact (key p l hl).2.2
  · intro p q l l' _ _ hl' ho _
    rw [(key q l' hl').1] at ho; cases ho
  · intro p l _ hl _
    obtain ⟨_, h1, h2⟩ := key p l hl
    have := original_here h2
    rwa [show p + (l.loc - p) = l.loc by omega] at this

/-- The overrides of the ordinary kind (`x=v`, `x+=v`, `x=+v`, or all of them `!`): all are
entered into the same root or the global scope and apply to everything in it. -/
structure Ordinary (S : Setup α) (K : Nat) (v : Nat → Val α) : Prop where
  bound : K ≤ S.n
  some : S.ovs ≠ []
  vis : ∀ o ∈ S.ovs, o.vis = .global
  other : ∀ i j, i ≠ K → S.ovr i j = none
  set : ∀ j, j < S.ovs.length → S.ovr K j = Option.some (v j)

theorem chain_length (S : Setup α) (p : Nat) : (S.chainFrom p).length = S.n + 1 - p := by
  simp [Setup.chainFrom]

theorem chain_get (S : Setup α) (p i : Nat) :
    (S.chainFrom p)[i]? = if i < S.n + 1 - p then some (S.scopeAt (p + i)) else none := by
  unfold Setup.chainFrom
  rw [List.getElem?_map]
  by_cases h : i < S.n + 1 - p
  · rw [if_pos h, List.getElem?_range' h]; simp
  · rw [if_neg h, List.getElem?_eq_none (by simp; omega)]; rfl

theorem chain_ovr (S : Setup α) (p i j : Nat) :
    ovrAt (S.chainFrom p) i j = if i < S.n + 1 - p then S.ovr (p + i) j else none := by
  unfold ovrAt
  rw [chain_get]
  by_cases h : i < S.n + 1 - p
  · rw [if_pos h, if_pos h]; rfl
  · rw [if_neg h, if_neg h]

theorem chain_proj (S : Setup α) (p i : Nat) :
    projAt (S.chainFrom p) i = if p + i < S.n then some (p + i) else none := by
  unfold projAt
  rw [chain_get]
  by_cases h : i < S.n + 1 - p
  · rw [if_pos h]; rfl
  · rw [if_neg h, if_neg (by omega)]

theorem chain_ok (S : Setup α) (p : Nat) : ProjOk (S.chainFrom p) := by
  intro i j hij h
  rw [chain_proj] at h ⊢
  split at h
  · cases h
  · rw [if_neg (by omega)]

theorem orig_located (S : Setup α) (p : Nat) :
    Located (S.chainFrom p) false false (S.orig p) := by
  unfold Setup.orig
  cases ho : S.original p with
  | none => trivial
  | some x =>
    obtain ⟨i, v, d⟩ := x
    have := original_lt ho
    refine ⟨?_, i, rfl, rfl⟩
    rw [chain_length]
    show i < _
    omega

/-- Where a value ends up with the overrides added. -/
theorem fold_loc {sub : Nat → Nat → Bool} {chain : List (Sc α)} {k : Nat} {v : Nat → Val α} :
    ∀ (l : List (Ov × Nat)) (a : Acc α) (m : Nat), (∀ e ∈ l, e.1.vis = .global) →
      (∀ e ∈ l, ovrAt chain k e.2 = some (v e.2)) → a.loc = some (.plain m) →
      ((l.map (fun e => (k, e))).foldl (contribute sub chain) a).loc =
        some (.plain (if l.any (fun e => !(e.1.kind == .replace)) then min m k else m))
  | [], a, m, _, _, h => h
  | e :: l, a, m, hg, hv, h => by
    rw [List.map_cons, List.foldl_cons]
    have hc : (contribute sub chain a (k, e)).loc =
        some (.plain (if !(e.1.kind == .replace) then min m k else m)) := by
      unfold contribute
      simp only [hv e (by simp)]
      cases (e.1.kind == .replace) with
      | true => simpa using h
      | false =>
        simp only [Bool.false_eq_true, if_false, h]
        have : reaches sub chain e.1 k (.plain m) a.proj = true := by
          unfold reaches; rw [hg e (by simp)]
        simp only [this, if_true, Bool.not_false]
        congr 1
        have hpos : (Loc.plain m).pos = m := rfl
        split
        · rw [Nat.min_eq_right (by omega)]
        · rw [Nat.min_eq_left (by omega)]
    rw [fold_loc l _ _ (fun e he => hg e (by simp [he])) (fun e he => hv e (by simp [he])) hc]
    rw [List.any_cons]
    cases (e.1.kind == .replace) with
    | true => simp only [Bool.not_true, Bool.false_or, Bool.false_eq_true, if_false]
    | false =>
      simp only [Bool.not_false, Bool.true_or, if_true]
      split
      · rw [Nat.min_assoc, Nat.min_self]
      · rfl

theorem fold_loc_none {sub : Nat → Nat → Bool} {chain : List (Sc α)} {k : Nat} {v : Nat → Val α}
    (l : List (Ov × Nat)) (a : Acc α) (hg : ∀ e ∈ l, e.1.vis = .global)
    (hv : ∀ e ∈ l, ovrAt chain k e.2 = some (v e.2)) (ha : a.loc = none) (hne : l ≠ [])
    (hr : ∀ e ∈ l, (e.1.kind == .replace) = false) :
    ((l.map (fun e => (k, e))).foldl (contribute sub chain) a).loc = some (.plain k) := by
  cases l with
  | nil => exact absurd rfl hne
  | cons e l =>
    rw [List.map_cons, List.foldl_cons]
    have hc : (contribute sub chain a (k, e)).loc = some (.plain k) := by
      unfold contribute
      simp only [hv e (by simp), hr e (by simp), Bool.false_eq_true, if_false, ha]
    rw [fold_loc (v := v) l _ _ (fun e he => hg e (by simp [he]))
      (fun e he => hv e (by simp [he])) hc]
    simp

/-- Whether there is a replacement among the overrides. -/
def replaced (S : Setup α) : Bool := S.ovs.any (fun o => o.kind == .replace)

/-- Where the value comes from. -/
def homeOf (S : Setup α) (K p : Nat) : Nat :=
  if replaced S then K else match S.original p with | none => K | some (i, _, _) => min (p + i) K

theorem commandLine_isSome (v : Nat → Val α) (l : List (Ov × Nat)) (x : Option (Val α))
    (h : x.isSome = true ∨ l ≠ []) : (commandLine v x l).isSome = true := by
  have : ∀ (l : List (Ov × Nat)) (x : Option (Val α)), x.isSome = true →
      (commandLine v x l).isSome = true := by
    intro l
    induction l with
    | nil => intro x h; exact h
    | cons e l ih =>
      intro x _
      refine ih _ ?_
      dsimp only
      split
      · rfl
      · exact extend_isSome _ _ _
  cases l with
  | nil => exact this _ x (h.resolve_right (by simp))
  | cons e l =>
    refine this l _ ?_
    dsimp only
    split
    · rfl
    · exact extend_isSome _ _ _

/-- With a replacement the original does not matter. -/
theorem commandLine_replaced (v : Nat → Val α) :
    ∀ (l : List (Ov × Nat)) (x y : Option (Val α)), l.any (fun e => e.1.kind == .replace) = true →
      commandLine v x l = commandLine v y l
  | [], _, _, h => by cases h
  | e :: l, x, y, h => by
    rw [List.any_cons] at h
    show commandLine v (if e.1.kind == .replace then _ else _) l =
      commandLine v (if e.1.kind == .replace then _ else _) l
    cases hk : (e.1.kind == .replace) with
    | true => rfl
    | false =>
      rw [hk, Bool.false_or] at h
      exact commandLine_replaced v l _ _ h

theorem any_zipIdx (l : List Ov) (P : Ov → Bool) (k : Nat) :
    (l.zipIdx k).any (fun e => P e.1) = l.any P := by
  induction l generalizing k with
  | nil => rfl
  | cons a l ih => rw [List.zipIdx_cons, List.any_cons, List.any_cons, ih]

/-- A lookup in a project that ordinary overrides apply to. -/
theorem look_inside {S : Setup α} {K : Nat} {v : Nat → Val α} (h : Ordinary S K v) {p : Nat}
    (hpK : p ≤ K) :
    ∃ x d, commandLine v ((S.original p).map (·.2.1)) S.ovs.zipIdx = some x ∧
      S.look p = .found ⟨x, homeOf S K p, d, true⟩ := by
  have hK := h.bound
  have hlook : S.look p = S.ovrLook p := by
    unfold Setup.look
    rw [if_neg (by simpa using h.some)]
  have hother : ∀ i j, i ≠ K - p → ovrAt (S.chainFrom p) i j = none := by
    intro i j hne
    rw [chain_ovr]
    split
    · exact h.other _ _ (by omega)
    · rfl
  have hset : ∀ j, j < S.ovs.length → ovrAt (S.chainFrom p) (K - p) j = some (v j) := by
    intro j hj
    rw [chain_ovr, if_pos (by omega), show p + (K - p) = K by omega]
    exact h.set j hj
  have hp1 : pass1 Setup.sub false S.ovs.zipIdx (S.orig p) 0
      (startInner (S.chainFrom p) false false (S.orig p)) (S.chainFrom p) = some true := by
    rw [start_seen (orig_located S p)]
    have := pass1_eq (sub := Setup.sub) (target := false) (rule := false) (ovs := S.ovs.zipIdx)
      (orig := S.orig p) (S.chainFrom p) [] (chain_ok S p) (orig_located S p)
    simp only [List.nil_append, List.length_nil] at this
    rw [this]
    congr 1
    rw [List.any_eq_true]
    obtain ⟨o, ho⟩ := List.exists_mem_of_ne_nil _ h.some
    obtain ⟨j, hj⟩ := List.mem_iff_getElem?.mp ho
    have hjl := (List.getElem?_eq_some_iff.mp hj).1
    refine ⟨(K - p, o, j), ?_, ?_⟩
    · have : (K - p, o, j) ∈ pairs (S.chainFrom p).length S.ovs.zipIdx.reverse := by
        unfold pairs
        rw [List.mem_flatMap]
        refine ⟨K - p, by rw [List.mem_range, chain_length]; omega, ?_⟩
        rw [List.mem_map]
        exact ⟨(o, j), by rw [List.mem_reverse, List.mk_mem_zipIdx_iff_getElem?]; exact hj, rfl⟩
      rwa [pairs_eq] at this
    · unfold counts
      rw [hset j hjl]
      simp only [Option.isSome_some, Bool.true_and]
      unfold Override.cond
      cases S.orig p with
      | none => rfl
      | some g => simp [reaches, h.vis o ho]
  have hkl : K - p < (S.chainFrom p).length := by rw [chain_length]; omega
  obtain ⟨r, hr1, hr2⟩ := command_line_order (sub := Setup.sub) (rule := false) (chain_ok S p)
    (orig_located S p) hkl h.vis hother hset
  obtain ⟨r', hr1', _, hr3'⟩ := lookup_overridden_partial (sub := Setup.sub) (ovs := S.ovs)
    (rule := false) (chain_ok S p) (orig_located S p) (.inl rfl)
    (.inl fun o ho => by rw [h.vis o ho]; decide)
  have hrr : r' = r := by rw [hr1] at hr1'; exact (Option.some.inj hr1').symm
  subst hrr
  have hloc := (hr3' rfl).1
  have hmap : (S.orig p).map (·.val) = (S.original p).map (·.2.1) := by
    unfold Setup.orig; cases S.original p <;> rfl
  rw [hmap] at hr2
  have hzne : S.ovs.zipIdx ≠ [] := by simpa using h.some
  have hvs := commandLine_isSome v S.ovs.zipIdx ((S.original p).map (·.2.1)) (.inr hzne)
  obtain ⟨x, hx⟩ := Option.isSome_iff_exists.mp hvs
  -- The location.
  have hset' : ∀ e ∈ S.ovs.zipIdx, ovrAt (S.chainFrom p) (K - p) e.2 = some (v e.2) := by
    rintro ⟨o, j⟩ he
    have := List.snd_lt_of_mem_zipIdx he
    exact hset j (by simpa using this)
  have hvis : ∀ e ∈ S.ovs.zipIdx, e.1.vis = .global := by
    rintro ⟨o, j⟩ he
    exact h.vis o (List.fst_mem_of_mem_zipIdx he)
  have hrep : replacement Setup.sub (S.chainFrom p) S.ovs (S.orig p) =
      (S.ovs.zipIdx.reverse.find? (fun e => e.1.kind == .replace)).map (fun e => (K - p, e)) := by
    rw [replacement_eq, find_one_scope hother _ _ (by
      intro e he
      unfold replaces at he
      simp only [Bool.and_eq_true] at he
      exact he.1.2), if_pos (by omega), find_map_pair]
    have : ∀ (m : List (Ov × Nat)), (∀ e ∈ m, e ∈ S.ovs.zipIdx) →
        m.find? (fun o => replaces Setup.sub (S.chainFrom p) (S.orig p) (K - p, o)) =
          m.find? (fun e => e.1.kind == .replace) := by
      intro m
      induction m with
      | nil => intro _; rfl
      | cons e m ih =>
        intro hm
        simp only [List.find?_cons]
        have he := hm e (by simp)
        have hrp : replaces Setup.sub (S.chainFrom p) (S.orig p) (K - p, e) =
            (e.1.kind == .replace) := by
          unfold replaces
          simp only [hset' e he, Option.isSome_some, Bool.and_true]
          have : Override.cond Setup.sub (S.chainFrom p) (S.orig p) (K - p) e.1 = true := by
            unfold Override.cond
            cases S.orig p with
            | none => rfl
            | some g => simp [reaches, hvis e he]
          rw [this, Bool.and_true]
        rw [hrp, ih (fun e he => hm e (by simp [he]))]
    rw [this _ (fun e he => List.mem_reverse.1 he)]
  have hlv : ∃ m, r'.loc = some (.plain m) ∧ p + m = homeOf S K p := by
    rw [hloc]
    unfold overridden
    rw [pairs_eq, fold_one_scope hother, if_pos (by omega), filter_map_pair]
    unfold homeOf replaced
    cases hf : S.ovs.zipIdx.reverse.find? (fun e => e.1.kind == .replace) with
    | some e =>
      have hany : S.ovs.any (fun o => o.kind == .replace) = true := by
        rw [← any_zipIdx S.ovs (fun o => o.kind == .replace) 0, List.any_eq_true]
        have hk := List.find?_some hf
        exact ⟨e, List.mem_reverse.1 (List.mem_of_find?_eq_some hf), hk⟩
      refine ⟨K - p, ?_, by rw [if_pos hany]; omega⟩
      rw [fold_loc (v := v) (m := K - p) _ _ (fun e he => hvis e (List.mem_filter.1 he).1)
        (fun e he => hset' e (List.mem_filter.1 he).1)
        (by unfold stem; rw [hrep, hf]; rfl)]
      rw [Nat.min_self, ite_self]
    | none =>
      have hall : ∀ e ∈ S.ovs.zipIdx, (e.1.kind == .replace) = false := by
        intro e he
        have := (List.find?_eq_none.1 hf) e (List.mem_reverse.2 he)
        simpa using this
      have hany : S.ovs.any (fun o => o.kind == .replace) = false := by
        rw [← any_zipIdx S.ovs (fun o => o.kind == .replace) 0, List.any_eq_false]
        intro e he
        rw [hall e he]; simp
      rw [hrep, hf]
      simp only [Option.map_none]
      have hfil : S.ovs.zipIdx.filter (fun o => !superseded none (K - p, o)) = S.ovs.zipIdx := by
        rw [List.filter_eq_self]; intro _ _; rfl
      rw [hfil, hany]
      simp only [Bool.false_eq_true, if_false]
      cases ho : S.original p with
      | none =>
        refine ⟨K - p, ?_, by simp only; omega⟩
        refine fold_loc_none (v := v) _ _ hvis hset' ?_ hzne hall
        unfold stem
        rw [hrep, hf]
        simp [Setup.orig, ho]
      | some y =>
        obtain ⟨i, w, d⟩ := y
        refine ⟨min i (K - p), ?_, by simp only; omega⟩
        rw [fold_loc (v := v) (m := i) _ _ hvis hset' (by
          unfold stem
          rw [hrep, hf]
          simp [Setup.orig, ho])]
        rw [if_pos]
        obtain ⟨e, he⟩ := List.exists_mem_of_ne_nil _ hzne
        rw [List.any_eq_true]
        exact ⟨e, he, by rw [hall e he]; rfl⟩
  obtain ⟨m, hm1, hm2⟩ := hlv
  refine ⟨x, (S.original p).any (·.2.2), hx, ?_⟩
  rw [hlook]
  unfold Setup.ovrLook
  rw [hp1, hr1]
  simp only [hr2, hx, hm1]
  rw [← hm2]
  rfl

/-- A lookup outside of what ordinary overrides apply to. -/
theorem look_outside {S : Setup α} {K : Nat} {v : Nat → Val α} (h : Ordinary S K v) {p : Nat}
    (hpK : K < p) : S.look p = S.plainLook p := by
  have hnone : ∀ i j, ovrAt (S.chainFrom p) i j = none := by
    intro i j
    rw [chain_ovr]
    split
    · exact h.other _ _ (by omega)
    · rfl
  have hcount : (pairsFrom 0 (S.chainFrom p).length S.ovs.zipIdx.reverse).any
      (counts Setup.sub (S.chainFrom p) (S.orig p)) = false := by
    rw [List.any_eq_false]
    intro e _
    unfold counts
    rw [hnone]; simp
  have hp1 : pass1 Setup.sub false S.ovs.zipIdx (S.orig p) 0
      (startInner (S.chainFrom p) false false (S.orig p)) (S.chainFrom p) = some false := by
    rw [start_seen (orig_located S p)]
    have := pass1_eq (sub := Setup.sub) (target := false) (rule := false) (ovs := S.ovs.zipIdx)
      (orig := S.orig p) (S.chainFrom p) [] (chain_ok S p) (orig_located S p)
    simp only [List.nil_append, List.length_nil] at this
    rw [this, hcount]
  unfold Setup.look
  rw [if_neg (by simpa using h.some)]
  unfold Setup.ovrLook
  rw [hp1, lookupOverride_eq (chain_ok S p) (orig_located S p), hcount]
  unfold Setup.plainLook unchangedInfo Setup.orig
  cases S.original p with
  | none => rfl
  | some x => rfl

/-- **C46.** With ordinary overrides. -/
theorem coherent_ordinary {S : Setup α} {K : Nat} {v : Nat → Val α} (h : Ordinary S K v) :
    Coherent S := by
  have hK := h.bound
  have key : ∀ p l, K < p → S.look p = .found l → l.over = false ∧ p ≤ l.loc ∧
      S.original p = some (l.loc - p, l.val, l.dflt) := by
    intro p l hp hl
    rw [look_outside h hp] at hl
    unfold Setup.plainLook at hl
    cases ho : S.original p with
    | none => rw [ho] at hl; cases hl
    | some x =>
      obtain ⟨i, v, d⟩ := x
      rw [ho] at hl
      injection hl with hl
      subst hl
      refine ⟨rfl, Nat.le_add_right _ _, ?_⟩
      simp
  have home : ∀ p, p ≤ K → p ≤ homeOf S K p ∧ homeOf S K p ≤ K := by
    intro p hp
    unfold homeOf
    split
    · exact ⟨hp, Nat.le_refl _⟩
    · split
      · exact ⟨hp, Nat.le_refl _⟩
      · omega
  have same : ∀ p q, p ≤ q → q ≤ homeOf S K p → p ≤ K → homeOf S K q = homeOf S K p ∧
      commandLine v ((S.original q).map (·.2.1)) S.ovs.zipIdx =
        commandLine v ((S.original p).map (·.2.1)) S.ovs.zipIdx := by
    intro p q hpq hq hp
    unfold homeOf at hq ⊢
    by_cases hr : replaced S = true
    · rw [if_pos hr, if_pos hr]
      refine ⟨rfl, commandLine_replaced v _ _ _ ?_⟩
      unfold replaced at hr
      rw [← any_zipIdx S.ovs (fun o => o.kind == .replace) 0] at hr
      exact hr
    · rw [if_neg hr] at hq
      rw [if_neg hr, if_neg hr]
      cases ho : S.original p with
      | none => rw [original_none ho hpq]; exact ⟨rfl, rfl⟩
      | some x =>
        obtain ⟨i, w, d⟩ := x
        rw [ho] at hq
        simp only at hq
        rw [original_next ho hpq (by omega)]
        simp only [Option.map_some]
        exact ⟨by omega, trivial⟩
  constructor
  · intro p _ hc
    by_cases hp : p ≤ K
    · obtain ⟨x, d, _, h2⟩ := look_inside h hp
      rw [h2] at hc; cases hc
    · rw [look_outside h (by omega)] at hc
      unfold Setup.plainLook at hc
      split at hc <;> cases hc
  · intro p l hpn hl
    by_cases hp : p ≤ K
    · obtain ⟨x, d, _, h2⟩ := look_inside h hp
      rw [hl] at h2; injection h2 with h2
      subst h2
      have := home p hp
      exact ⟨this.1, Nat.le_trans this.2 hK⟩
    · obtain ⟨_, h1, h2⟩ := key p l (by omega) hl
      have := original_lt h2
      exact ⟨h1, by omega⟩
  · intro p q l hl hpq hq hqn
    by_cases hp : p ≤ K
    · obtain ⟨x, d, h1, h2⟩ := look_inside h hp
      rw [hl] at h2; injection h2 with h2
      subst h2
      simp only at hq ⊢
      have hqK : q ≤ K := Nat.le_trans hq (home p hp).2
      obtain ⟨x', d', h3, h4⟩ := look_inside h hqK
      obtain ⟨e1, e2⟩ := same p q hpq hq hp
      rw [h3, h1] at e2
      exact ⟨_, h4, Option.some.inj e2, e1, rfl⟩
    · obtain ⟨h0, h1, h2⟩ := key p l (by omega) hl
      have := original_next h2 hpq (by omega)
      refine ⟨⟨l.val, l.loc, l.dflt, false⟩, ?_, rfl, rfl, h0.symm⟩
      rw [look_outside h (by omega)]
      unfold Setup.plainLook
      rw [this]
      simp only
      rw [show q + (p + (l.loc - p) - q) = l.loc by omega]
  · intro p l hpn hl ho
    by_cases hp : p ≤ K
    · obtain ⟨x, d, _, h2⟩ := look_inside h hp
      rw [hl] at h2; injection h2 with h2
      subst h2
      cases ho
    · exact (key p l (by omega) hl).2.2
  · intro p q l l' hpq _ hl' ho hl
    by_cases hq : q ≤ K
    · obtain ⟨x, d, _, h2⟩ := look_inside h (Nat.le_trans hpq hq)
      rw [hl] at h2; injection h2 with h2
      subst h2; rfl
    · rw [(key q l' (by omega) hl').1] at ho; cases ho
  · intro p l hpn hl hln
    by_cases hp : p ≤ K
    · obtain ⟨x, d, _, h2⟩ := look_inside h hp
      rw [hl] at h2; injection h2 with h2
      subst h2
      simp only at hln ⊢
      have hat : S.here K = true := by
        unfold Setup.here
        have hpos : 0 < S.ovs.length := List.length_pos_iff.mpr h.some
        have : (List.range S.ovs.length).any (fun j => (S.ovr K j).isSome) = true := by
          rw [List.any_eq_true]
          exact ⟨0, List.mem_range.mpr hpos, by rw [h.set 0 hpos]; rfl⟩
        rw [this, Bool.or_true]
      unfold homeOf
      split
      · exact hat
      · cases ho : S.original p with
        | none => exact hat
        | some y =>
          obtain ⟨i, w, d⟩ := y
          simp only
          by_cases hm : p + i ≤ K
          · rw [Nat.min_eq_left hm]; exact original_here ho
          · rw [Nat.min_eq_right (by omega)]; exact hat
    · obtain ⟨_, h1, h2⟩ := key p l (by omega) hl
      have := original_here h2
      rwa [show p + (l.loc - p) = l.loc by omega] at this

/-! ## Saving to a separate file -/

/-- **C46 (partial).** A configuration saved with config.config.save stands on its own: the
project that loads it, without any amalgamation, has the value that was saved, wherever it came
from. Missing: an inherited default that is not written, see `standalone_default`. -/
theorem standalone_partial {S : Setup α} {p : Nat} {r : Proj α} {m : Mod} {f : Flags} {l : Look α}
    (hco : Coherent S) (hs : Saved S p r m f) (hl : S.look p = .found l)
    (hom : S.omitted f l.val = false)
    (hd : l.over = false → l.dflt = true → f.defaultCommented || f.defaultOmitted → l.loc = p) :
    ∃ d, loadAll [{ r with file := (S.saveLine false p r m).value }] = [some (l.val, d)] := by
  have hp : p < S.n := (List.getElem?_eq_some_iff.mp hs.proj).1
  obtain ⟨sn, hmark⟩ := hs.mark
  have hline : S.saveLine false p r m =
      if Setup.skipDefault f l then .skip else .line l.val := by
    unfold Setup.saveLine
    rw [hmark]
    simp only [hl, hom, Bool.false_eq_true, if_false]
    rfl
  by_cases hsd : Setup.skipDefault f l = true
  · have hv : (S.saveLine false p r m).value = none := by rw [hline, if_pos hsd]; rfl
    unfold Setup.skipDefault at hsd
    simp only [Bool.and_eq_true, Bool.not_eq_true'] at hsd
    obtain ⟨⟨h1, h2⟩, h3⟩ := hsd
    have hloc := hd h2 h1 h3
    have horg := original_at (hco.plain p l hp hl h2)
    rw [hloc, Nat.sub_self, Nat.add_zero, os_get S hs.proj, h1] at horg
    obtain ⟨_, u, hu, hud, _⟩ := own_default (Option.some.inj horg)
    refine ⟨true, ?_⟩
    simp [loadAll, own, hv, hu, hud, nearest]
  · have hv : (S.saveLine false p r m).value = some l.val := by rw [hline, if_neg hsd]; rfl
    refine ⟨false, ?_⟩
    simp [loadAll, own, hv]

/-! ## config.config.persist -/

/-- What the conditions mean. -/
theorem cond_applies (inherited unused : Bool) :
    (Cond.unused.applies inherited unused = true ↔ unused = true ∧ inherited = false) ∧
    (Cond.inherited.applies inherited unused = true ↔ inherited = true) ∧
    (Cond.inheritedUsed.applies inherited unused = true ↔ inherited = true ∧ unused = false) ∧
    (Cond.inheritedUnused.applies inherited unused = true ↔ inherited = true ∧ unused = true) := by
  cases inherited <;> cases unused <;> simp [Cond.applies]

/-- The rule is about this variable in this situation. -/
def Rule.about (inherited unused : Bool) (r : Rule) : Prop :=
  r.pattern = true ∧ r.cond.applies inherited unused = true

theorem persistLoop_skip {inherited unused : Bool} {rs : List Rule} :
    ∀ (l : List Rule), (∀ r ∈ l, ¬ r.about inherited unused) →
      persistLoop inherited unused (l ++ rs) = persistLoop inherited unused rs
  | [], _ => rfl
  | r :: l, h => by
    have ih := persistLoop_skip (rs := rs) l (fun r hr => h r (List.mem_cons_of_mem _ hr))
    rw [List.cons_append, persistLoop, ih]
    by_cases h1 : r.pattern = true
    · have h2 : r.cond.applies inherited unused = false := by
        cases hc : r.cond.applies inherited unused with
        | false => rfl
        | true => exact absurd ⟨h1, hc⟩ (h r List.mem_cons_self)
      simp [h1, h2]
    · simp [h1]

/-- **C46.** The last entry of config.config.persist that is about the variable wins. -/
theorem persist_last {a b : List Rule} {r : Rule} {inherited unused : Bool}
    (hr : r.about inherited unused) (hb : ∀ x ∈ b, ¬ x.about inherited unused) :
    persistDecision (a ++ r :: b) inherited unused = (r.save, r.warn) := by
  unfold persistDecision
  rw [List.reverse_append, List.reverse_cons, List.append_assoc,
    persistLoop_skip _ (by intro x hx; exact hb x (List.mem_reverse.mp hx))]
  simp only [List.singleton_append]
  rw [persistLoop]
  simp [hr.1, hr.2]

/-- **C46.** If there is none, then unused values are dropped and inherited values that are
used by the amalgamation are inherited silently, while other inherited values are saved. -/
theorem persist_default {rs : List Rule} {inherited unused : Bool}
    (h : ∀ r ∈ rs, ¬ r.about inherited unused) :
    (persistDecision rs inherited unused).1 = (inherited && unused) ∧
    (persistDecision rs inherited unused).2 = (unused || !inherited) := by
  unfold persistDecision
  have := persistLoop_skip (rs := []) rs.reverse (fun r hr => h r (List.mem_reverse.mp hr))
  rw [List.append_nil] at this
  rw [this]
  cases inherited <;> cases unused <;> exact ⟨rfl, rfl⟩

example : persistDecision [⟨true, .unused, true, false⟩, ⟨false, .unused, false, true⟩,
    ⟨true, .inherited, false, true⟩] false true = (true, false) := by decide

/-! ## Cases -/

/-- Something to build the cases from: the variable is of module 1. -/
def exUse (d : Option (Val Nat)) (f : Flags := {}) : Use Nat := ⟨1, d, false, some f⟩

/-- A config module. -/
def exMod (persist : Option Bool := none) : Mod := ⟨[1], 9, persist⟩

/-- Everything is configured, amalgamations first. -/
def exSetup (projs : List (Proj Nat)) (ovs : List Ov := []) (K : Nat := 0)
    (v : Nat → Val Nat := fun _ => none) : Setup Nat :=
  ⟨projs, ovs, fun i j => if i = K ∧ j < ovs.length then some (v j) else none, fun _ => true,
   fun p q => decide (p < q), false, fun _ => false⟩

theorem exSetup_ordinary {projs : List (Proj Nat)} {ovs : List Ov} {K : Nat} {v : Nat → Val Nat}
    (h1 : K ≤ projs.length) (h2 : ovs ≠ []) (h3 : ∀ o ∈ ovs, o.vis = .global) :
    Ordinary (exSetup projs ovs K v) K v where
  bound := h1
  some := h2
  vis := h3
  other := by
    intro i j hij
    show (if i = K ∧ j < ovs.length then Option.some (v j) else none) = none
    rw [if_neg (fun h => hij h.1)]
  set := by
    intro j hj
    show (if K = K ∧ j < ovs.length then Option.some (v j) else none) = Option.some (v j)
    rw [if_pos ⟨rfl, hj⟩]

/-- A project with a default inside one which has `x` in its file inside one that does not use
it: `b configure x+=5`. -/
def ex1 : Setup Nat :=
  exSetup [⟨none, some (exUse (some (some [1])) { defaultCommented := true }), some exMod⟩,
    ⟨some (some [2]), some (exUse none), some exMod⟩,
    ⟨none, none, some exMod⟩] [⟨.global, .suffix⟩] 2 (fun _ => some [5])

example : ∃ d, ex1.look 0 = .found ⟨some [2, 5], 1, d, true⟩ := ⟨_, rfl⟩
example : ex1.reloaded.map (·.file) = [none, some (some [2, 5]), none] := by decide
example : ex1.reloadValue 0 = some (some [2, 5]) := by decide

/-- The hypotheses of `save_reload_partial` are met. -/
example : Coherent ex1 ∧ Saved ex1 0 (ex1.projs[0]'(by decide)) exMod { defaultCommented := true } ∧
    Involved ex1 ⟨some [2, 5], 1, false, true⟩ := by
  refine ⟨coherent_ordinary (exSetup_ordinary (by decide) (by decide) (by decide)),
    ⟨rfl, rfl, rfl, 1, rfl⟩, ?_⟩
  have hmem : ∀ r ∈ ex1.projs, r = (ex1.projs[0]'(by decide)) ∨ r = (ex1.projs[1]'(by decide)) ∨
      r = (ex1.projs[2]'(by decide)) := by
    intro r hr
    simpa [ex1, exSetup] using hr
  constructor
  · intro i r hr _
    rcases hmem r (List.mem_of_getElem? hr) with h | h | h <;> subst h <;>
      exact fun h => by cases h
  · intro _ _ _; rfl
  · intro _ _ _ _ _ _ _; rfl
  · intro r hr u hu
    rcases hmem r hr with h | h | h <;> subst h <;> cases hu <;> exact fun h => by cases h
  · intro r hr u f hu hf
    rcases hmem r hr with h | h | h <;> subst h <;> cases hu <;> cases hf <;> rfl
  · intro _ r hr u hu
    rcases hmem r hr with h | h | h <;> subst h <;> cases hu <;> rfl
  · rfl
  · intro h; cases h

/-- A `!` override: all three projects use it and it is written by the outermost one only. -/
def ex2 : Setup Nat :=
  exSetup (List.replicate 3 ⟨none, some (exUse (some none)), some exMod⟩)
    [⟨.global, .replace⟩] 3 (fun _ => some [5])

example : ex2.reloaded.map (·.file) = [none, none, some (some [5])] := by decide
example : ex2.reloadValue 0 = some (some [5]) := by decide

/-! ## Where the configuration is not kept -/

/-- An outer project that is told to save unused variables is taken to save a global override,
but does not, since the variable is not set there: the value is lost. -/
theorem global_persist_lost :
    let S := exSetup [⟨none, some (exUse none), some exMod⟩, ⟨none, none, some (exMod (some true))⟩]
      [⟨.global, .replace⟩] 2 (fun _ => some [5])
    (∃ d, S.look 0 = .found ⟨some [5], 2, d, true⟩) ∧ S.reloadValue 0 = none :=
  ⟨⟨_, rfl⟩, by decide⟩

/-- The same for a special variable that is set in the outer project. -/
theorem special_persist_lost :
    let S := { exSetup [⟨none, some (exUse none), some exMod⟩,
      ⟨some (some [5]), none, some (exMod (some true))⟩] with special := true }
    (∃ d, S.look 0 = .found ⟨some [5], 1, d, false⟩) ∧ S.reloadValue 0 = none :=
  ⟨⟨_, rfl⟩, by decide⟩

/-- The same for a variable that the outer project uses without saving. -/
theorem unsaved_lost :
    let S := exSetup [⟨none, some (exUse none), some exMod⟩,
      ⟨some (some [5]), some ⟨1, none, false, none⟩, some exMod⟩]
    (∃ d, S.look 0 = .found ⟨some [5], 1, d, false⟩) ∧ S.reloadValue 0 = none :=
  ⟨⟨_, rfl⟩, by decide⟩

/-- The same for NULL that the outer project omits and the inner one does not. -/
theorem omitted_lost :
    let S := exSetup [⟨none, some (exUse none), some exMod⟩,
      ⟨some none, some (exUse none { nullOmitted := true }), some exMod⟩]
    (∃ d, S.look 0 = .found ⟨none, 1, d, false⟩) ∧ S.reloadValue 0 = none :=
  ⟨⟨_, rfl⟩, by decide⟩

/-- If the default is to override inherited values then it also overrides the saved override. -/
theorem default_override_wins :
    let S := exSetup [⟨none, some ⟨1, some (some [1]), true, some {}⟩, some exMod⟩,
      ⟨none, some (exUse none), some exMod⟩] [⟨.global, .replace⟩] 1 (fun _ => some [5])
    (∃ d, S.look 0 = .found ⟨some [5], 1, d, true⟩) ∧ S.reloadValue 0 = some (some [1]) :=
  ⟨⟨_, rfl⟩, by decide⟩

/-- A `%` override of the outer project does not apply to the default of the inner one, but if
the default is not written, then the saved override is inherited instead. -/
theorem project_override_inherited :
    let S := exSetup [⟨none, some (exUse (some (some [1])) { defaultCommented := true }), some exMod⟩,
      ⟨none, some (exUse none), some exMod⟩] [⟨.project, .replace⟩] 1 (fun _ => some [5])
    (∃ d, S.look 0 = .found ⟨some [1], 0, d, false⟩) ∧ S.reloadValue 0 = some (some [5]) :=
  ⟨⟨_, rfl⟩, by decide⟩

/-- An inherited default that differs from the project's own is not written to a separate file
and so changes when that is loaded. -/
theorem standalone_default :
    let r : Proj Nat := ⟨none, some (exUse (some (some [1])) { defaultCommented := true }), some exMod⟩
    let S := exSetup [r,
      ⟨none, some (exUse (some (some [2])) { defaultCommented := true }), some exMod⟩]
    (∃ d, S.look 0 = .found ⟨some [2], 1, d, false⟩) ∧
    loadAll [{ r with file := (S.saveLine false 0 r exMod).value }] = [some (some [1], true)] :=
  ⟨⟨_, rfl⟩, by decide⟩

end Verif.ConfigSave
