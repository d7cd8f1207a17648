import Verif.LinkOrder.Deps
import Verif.LinkOrder.Rep

/-!
# Link order of libraries: adding a library
-/

namespace Verif.LinkOrder

variable {n : Nat}

/-- The options that are passed. -/
def optsOf (l : Lib n) : List Str :=
  match l.lang with
  | .unknown => []
  | .cc => l.cOpts
  | .x => if l.static && !explicit l then [] else l.xOpts ++ l.cOpts

/-- Whether options are passed. -/
def exportsB (l : Lib n) : Bool :=
  match l.lang with
  | .unknown => false
  | .cc => true
  | .x => !(l.static && !explicit l)

theorem exports_iff (l : Lib n) : exportsB l = true ↔ l.exports := by
  unfold exportsB Lib.exports
  rw [← explicit_iff]
  cases l.lang <;> cases l.static <;> cases explicit l <;> simp

theorem optsOf_options (l : Lib n) : Options l (optsOf l) := by
  have h := exports_iff l
  unfold Options
  unfold exportsB at h
  unfold optsOf
  cases hl : l.lang with
  | unknown => rw [hl] at h; simp at h; exact .inl ⟨h, rfl⟩
  | cc => rw [hl] at h; simp at h; exact .inr (.inl ⟨h, rfl, rfl⟩)
  | x =>
    rw [hl] at h
    simp only at h
    by_cases hb : (l.static && !explicit l) = true
    · rw [hb] at h; simp at h
      rw [if_pos hb]
      exact .inl ⟨h, rfl⟩
    · rw [if_neg hb]
      have hb' : (l.static && !explicit l) = false := by simpa using hb
      rw [hb'] at h; simp at h
      exact .inr (.inr ⟨h, rfl, rfl⟩)

/-- Options of a library that is complete are ignored. -/
theorem opt_closed {s : St n} {i : Fin n} {o : List Str} {x : Ent n} {k : Nat}
    (h : find s.ls (.lib i false) = some x) (hk : x.e = .at k) : opt s i o = s := by
  unfold opt
  rw [append_find h]
  simp [hk]

theorem options_closed {s : St n} {l : Lib n} {i : Fin n} {x : Ent n} {k : Nat}
    (h : find s.ls (.lib i false) = some x) (hk : x.e = .at k) : options s l i = s := by
  unfold options
  cases l.lang with
  | unknown => rfl
  | cc => exact opt_closed h hk
  | x =>
    simp only
    rw [opt_closed h hk, opt_closed h hk]
    simp

theorem opt_new {s : St n} {i : Fin n} {o : List Str} (h : find s.ls (.lib i false) = none) :
    opt s i o = ⟨s.ls ++ [⟨.lib i false, s.args.length, .npos 0⟩], s.args ++ o, s.cs ++ o.map .str⟩ := by
  unfold opt
  rw [append_new h]
  simp

theorem find_last {ls : List (Ent n)} {x : Ent n} (h : find ls x.key = none) :
    find (ls ++ [x]) x.key = some x := by
  rw [find_snoc, h]
  simp

theorem opt_open {s : St n} {i : Fin n} {o : List Str} {x : Ent n}
    (h : find s.ls (.lib i false) = some x) (hk : x.e = .npos 0) :
    opt s i o = ⟨s.ls, s.args ++ o, s.cs ++ o.map .str⟩ := by
  unfold opt
  rw [append_find h]
  simp [hk]

theorem options_new {s : St n} {l : Lib n} {i : Fin n} (h : find s.ls (.lib i false) = none) :
    if exportsB l then ∃ cs, options s l i =
      ⟨s.ls ++ [⟨.lib i false, s.args.length, .npos 0⟩], s.args ++ optsOf l, cs⟩
    else options s l i = s ∧ optsOf l = [] := by
  have h2 : ∀ o1 o2 : List Str, opt (opt s i o1) i o2 =
      ⟨s.ls ++ [⟨.lib i false, s.args.length, .npos 0⟩], s.args ++ (o1 ++ o2),
        s.cs ++ o1.map .str ++ o2.map .str⟩ := by
    intro o1 o2
    rw [opt_new h, opt_open (x := ⟨.lib i false, s.args.length, .npos 0⟩) (find_last h) rfl]
    simp
  unfold exportsB options optsOf
  cases l.lang with
  | unknown => simp
  | cc => simp only [if_true]; exact ⟨_, opt_new h⟩
  | x =>
    simp only
    rw [h2]
    cases l.static <;> cases explicit l <;> simp

/-- The arguments for the file. -/
def bodyArgs (p : Tsys) (g : Libs n) (chain : List (Fin n)) (i : Fin n) (w : Bool) : List Str :=
  if (g i).util && chain.any (fun j => !(g j).util) then []
  else if (g i).binless then []
  else addFile p (g i).path w

theorem libBody_eq (p : Tsys) (g : Libs n) (chain : List (Fin n)) (s : St n) (i : Fin n) (w : Bool) :
    ∃ cs, libBody p g chain s i w = ⟨s.ls, s.args ++ bodyArgs p g chain i w, cs⟩ := by
  unfold libBody bodyArgs
  split
  · exact ⟨s.cs, by simp⟩
  · split
    · exact ⟨s.cs, by simp⟩
    · exact ⟨_, rfl⟩

/-- What is passed for a library. -/
def fragOf (p : Tsys) (g : Libs n) (chain : List (Fin n)) (i : Fin n) (w : Bool) : List Str :=
  optsOf (g i) ++ bodyArgs p g chain i w

/-- The library is touched unless it and what it depends on has been seen and nothing is to be linked
for it. -/
theorem enter {P : List Str} {s : St n} {o : Order n} (h : Rep P s o) (p : Tsys) (g : Libs n)
    (chain : List (Fin n)) (i : Fin n) (w : Bool) (hw : w = true → ¬ (g i).exports) :
    (∃ s', libTarget p g chain (options s (g i) i) i w = .ok (s', false) ∧ Rep P s' o ∧ w = false ∧
      (g i).recBinless = true ∧ .lib i w ∈ things o) ∨
    (∃ s' o', libTarget p g chain (options s (g i) i) i w = .ok (s', true) ∧ Rep P s' o' ∧
      Touch o (.lib i w) (fragOf p g chain i w) o') := by
  cases w with
  | true =>
    right
    have hn : exportsB (g i) = false := by
      rw [← Bool.not_eq_true, exports_iff]; exact hw rfl
    have hd : (Dep.lib i true).once = false := rfl
    have ho : options s (g i) i = s ∧ optsOf (g i) = [] := by
      unfold exportsB at hn
      unfold options optsOf
      revert hn
      cases (g i).lang with
      | unknown => simp
      | cc => simp
      | x => cases (g i).static <;> cases explicit (g i) <;> simp
    rw [ho.1]
    obtain ⟨cs, hb⟩ := libBody_eq p g chain s i true
    refine ⟨_, _, by unfold libTarget; rw [if_pos rfl], ?_, .again hd⟩
    rw [hb, fragOf, ho.2, List.nil_append]
    exact untracked_rep h hd cs
  | false =>
    have hd : (Dep.lib i false).once = true := rfl
    unfold libTarget
    rw [if_neg (by simp)]
    rcases find_of_mem h hd with ⟨x, k, h1, h2, h3⟩ | ⟨h1, h3⟩
    · rw [options_closed h1 h2, append_find h1]
      simp only
      rw [if_pos (by rw [h2]; simp)]
      by_cases hr : (g i).recBinless = true
      · rw [if_pos hr]
        exact .inl ⟨_, rfl, h, trivial, hr, h3⟩
      · rw [if_neg hr]
        right
        obtain ⟨⟨d', f'⟩, hm', hd'⟩ := List.mem_map.1 h3
        simp only at hd'
        subst hd'
        obtain ⟨a, b, rfl⟩ := List.append_of_mem hm'
        obtain ⟨s', g1, g2⟩ := hoist_rep h hd h1
        refine ⟨s', _, ?_, g2, .known hd rfl⟩
        have e : ({ s with ls := s.ls } : St n) = s := rfl
        rw [e, g1]
    · right
      have ho := options_new (l := g i) h1
      by_cases he : exportsB (g i) = true
      · rw [if_pos he] at ho
        obtain ⟨cs, ho⟩ := ho
        rw [ho, append_find (x := ⟨.lib i false, s.args.length, .npos 0⟩) (find_last h1)]
        simp only [ne_eq, not_true_eq_false, if_false]
        obtain ⟨cs', hb⟩ := libBody_eq p g chain
          ⟨s.ls ++ [⟨.lib i false, s.args.length, .npos 0⟩], s.args ++ optsOf (g i), cs⟩ i false
        rw [hb]
        refine ⟨_, _, rfl, ?_, .new hd h3⟩
        have := new_rep (f := fragOf p g chain i false) h hd h1 cs'
        simp only [close, fragOf, List.append_assoc] at this ⊢
        exact this
      · rw [if_neg he] at ho
        rw [ho.1, append_new h1]
        simp only [ne_eq, not_true_eq_false, if_false]
        obtain ⟨cs', hb⟩ := libBody_eq p g chain
          ⟨s.ls ++ [⟨.lib i false, s.args.length, .npos 0⟩], s.args, s.cs⟩ i false
        rw [hb]
        refine ⟨_, _, rfl, ?_, .new hd h3⟩
        have := new_rep (f := fragOf p g chain i false) h hd h1 cs'
        simp only [close, fragOf, ho.2, List.nil_append] at this ⊢
        exact this

/-! ## Touching -/

theorem After.of_eq {L : List (Dep n)} {x y : Dep n} {a b : List (Dep n)} (h : After L x y)
    (hl : L = a ++ x :: b) : y ∈ b := h a b hl

theorem touch_mem {o o' : Order n} {d : Dep n} {f : List Str} (h : Touch o d f o') :
    (∀ x, x ∈ things o' ↔ x ∈ things o ∨ x = d) ∧
    (∀ x f1, (x, f1) ∈ o' → (x, f1) ∈ o ∨ (x = d ∧ f1 = f)) := by
  cases h with
  | @known a b f' hd ho =>
    subst ho
    constructor
    · intro x
      simp [things]
      constructor
      · rintro (h | h | h)
        · exact .inl (.inl h)
        · exact .inl (.inr (.inr h))
        · exact .inr h
      · rintro ((h | h | h) | h)
        · exact .inl h
        · exact .inr (.inr h)
        · exact .inr (.inl h)
        · exact .inr (.inr h)
    · intro x f1 hx
      left
      simp at hx ⊢
      rcases hx with h | h | h
      · exact .inl h
      · exact .inr (.inr h)
      · exact .inr (.inl h)
  | new => simp [things]
  | again => simp [things]

/-- The last is after all others. -/
theorem after_last {L : List (Dep n)} {x d : Dep n} (hx : x ≠ d) : After (L ++ [d]) x d := by
  intro a b h
  rcases List.eq_nil_or_concat b with rfl | ⟨b', l, rfl⟩
  · obtain ⟨-, h2⟩ := List.append_inj' h rfl
    cases h2
    exact absurd rfl hx
  · rw [List.concat_eq_append, ← List.cons_append, ← List.append_assoc] at h
    obtain ⟨-, h2⟩ := List.append_inj' h rfl
    cases h2
    simp

theorem after_snoc {L : List (Dep n)} {x y d : Dep n} (h : After L x y) (hx : x ≠ d) :
    After (L ++ [d]) x y := by
  intro a b hl
  rcases List.eq_nil_or_concat b with rfl | ⟨b', l, rfl⟩
  · obtain ⟨-, h2⟩ := List.append_inj' hl rfl
    cases h2
    exact absurd rfl hx
  · rw [List.concat_eq_append, ← List.cons_append, ← List.append_assoc] at hl
    obtain ⟨h1, h2⟩ := List.append_inj' hl rfl
    have := h a b' h1
    simp [this]

/-- Moving something to the end. -/
theorem after_move {A B : List (Dep n)} {x y d : Dep n} (h : After (A ++ d :: B) x y) (hx : x ≠ d) :
    After (A ++ B ++ [d]) x y := by
  intro a b hl
  rcases split_snoc hl with ⟨c, rfl⟩ | ⟨c, b2, rfl, rfl⟩ | ⟨-, hz⟩
  · have := h a (c ++ d :: B) (by simp)
    have hb : b = c ++ B ++ [d] := by
      have : a ++ x :: (c ++ B ++ [d]) = a ++ x :: b := by rw [← hl]; simp
      have := List.append_cancel_left this
      simpa using this.symm
    subst hb
    simp at this ⊢
    rcases this with h | h | h
    · exact .inl h
    · exact .inr (.inr h)
    · exact .inr (.inl h)
  · have := h (A ++ d :: c) b2 (by simp)
    have hb : b = b2 ++ [d] := by
      have : (A ++ c) ++ x :: (b2 ++ [d]) = (A ++ c) ++ x :: b := by rw [← hl]; simp
      have := List.append_cancel_left this
      simpa using this.symm
    subst hb
    simp [this]
  · exact absurd hz hx

theorem touch_after {o o' : Order n} {d : Dep n} {f : List Str} (h : Touch o d f o') :
    (∀ x, x ≠ d → After (things o') x d) ∧
    (∀ x y, x ≠ d → After (things o) x y → After (things o') x y) := by
  cases h with
  | @known a b f' hd ho =>
    subst ho
    constructor
    · intro x hx
      rw [things_append]
      exact after_last hx
    · intro x y hx h
      have e : things (a ++ (d, f') :: b) = things a ++ d :: things b := by simp [things]
      rw [e] at h
      have := after_move h hx
      simpa [things] using this
  | new =>
    rw [things_append]
    exact ⟨fun x hx => after_last hx, fun x y hx h => after_snoc h hx⟩
  | again =>
    rw [things_append]
    exact ⟨fun x hx => after_last hx, fun x y hx h => after_snoc h hx⟩

end Verif.LinkOrder
