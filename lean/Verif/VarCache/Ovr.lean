import Verif.VarCache.Lemmas

/-!
# Cached variable values: overrides

Helper lemmas, for overrides that apply to everything (neither `%` nor `/`).
-/

namespace Verif.VarCache

open Verif.Lookup (Val Kind)
open Verif.Override (Ov OVis OKind)

variable {α : Type}

/-- All the overrides are of global visibility. -/
def AllGlobal (w : World α) : Prop := ∀ o ∈ w.ovs, o.vis = .global

/-- There are no pattern-specific prepend/append values. -/
def NoAdd (maps : Maps α) : Prop := ∀ s n c, maps (.pattern s n) = some c → c.kind = .assign

theorem appliesTo_global {w : World α} {o : Ov} (h : o.vis = .global) (s : Nat)
    (x : Option (Vars × Option Nat)) : appliesTo w o s x = true := by
  cases x with
  | none => rfl
  | some p => obtain ⟨v, pr⟩ := p; simp [appliesTo, applies, h]

theorem mem_zip {w : World α} {p : Ov × Nat} (h : p ∈ w.ovs.zipIdx) : p.1 ∈ w.ovs := by
  obtain ⟨o, j⟩ := p
  exact (List.mem_zipIdx' h).2 ▸ List.getElem_mem _

/-! ## The original, without prepend/append -/

/-- Where the original is from. -/
def From (maps : Maps α) (o : Origin) (chain : List Nat) (x : Ref α) : Prop :=
  ∃ c, maps x.vars = some c ∧ x.store = .map x.vars ∧ x.val = c.val ∧ x.ver = c.ver ∧
    match x.vars with
    | .target t => t ∈ o.own
    | .plain s => s ∈ chain
    | .pattern s _ => s ∈ chain ∧ o.keys ≠ []

theorem origIn_assign {w : World α} {maps : Maps α} (hn : NoAdd maps) {o : Origin} {s : Nat}
    {rest : List Nat} {out : List Nat → PCache α → Option (Option (Ref α) × PCache α)}
    (hout : ∀ cur, (cur ≠ [] → o.keys ≠ []) → ∃ r, (∀ pc, out cur pc = some (r, pc)) ∧
      ∀ x, r = some x → From maps o rest x) :
    ∀ (tries cur : List Nat), (tries ≠ [] → o.keys ≠ []) → (cur ≠ [] → o.keys ≠ []) →
      ∃ r, (∀ pc, origIn w maps s out cur tries pc = some (r, pc)) ∧
        ∀ x, r = some x → From maps o (s :: rest) x := by
  intro tries
  induction tries with
  | nil =>
    intro cur _ hc
    simp only [origIn]
    cases hp : maps (.plain s) with
    | some c =>
      refine ⟨_, fun _ => rfl, ?_⟩
      intro x hx; cases hx
      exact ⟨c, hp, rfl, rfl, rfl, List.mem_cons_self⟩
    | none =>
      obtain ⟨r, h1, h2⟩ := hout cur hc
      refine ⟨r, h1, ?_⟩
      intro x hx
      obtain ⟨c, g1, g2, g3, g4, g5⟩ := h2 x hx
      refine ⟨c, g1, g2, g3, g4, ?_⟩
      cases hv : x.vars with
      | target t => rw [hv] at g5; exact g5
      | plain s' => rw [hv] at g5; exact List.mem_cons_of_mem _ g5
      | pattern s' n => rw [hv] at g5; exact ⟨List.mem_cons_of_mem _ g5.1, g5.2⟩
  | cons k ks ih =>
    intro cur ht hc
    simp only [origIn]
    cases hf : findPat w maps s k (w.pats s) with
    | none => exact ih cur (fun _ => ht (by simp)) hc
    | some p =>
      obtain ⟨m, c⟩ := p
      obtain ⟨n, rfl, _, hm⟩ := findPat_some hf
      have := hn s n c hm
      refine ⟨_, fun _ => by simp only; rw [if_neg (by simpa using this)], ?_⟩
      intro x hx; cases hx
      exact ⟨c, hm, rfl, rfl, rfl, List.mem_cons_self, ht (by simp)⟩

theorem origChain_assign {w : World α} {maps : Maps α} (hn : NoAdd maps) {o : Origin} :
    ∀ (chain cur : List Nat), (cur ≠ [] → o.keys ≠ []) →
      ∃ r, (∀ pc, origChain w maps chain cur pc = some (r, pc)) ∧
        ∀ x, r = some x → From maps o chain x := by
  intro chain
  induction chain with
  | nil => intro cur _; exact ⟨none, fun _ => rfl, fun x hx => by cases hx⟩
  | cons s rest ih => intro cur hc; exact origIn_assign hn ih cur cur hc hc

theorem original_assign {w : World α} {maps : Maps α} (hn : NoAdd maps) (o : Origin) :
    ∃ r, (∀ pc, original w maps o pc = some (r, pc)) ∧
      ∀ x, r = some x → From maps o (w.chain o.base) x := by
  unfold original
  cases ho : ownOf maps o.own with
  | some r =>
    obtain ⟨t, c, ht, hc, rfl⟩ := ownOf_some ho
    refine ⟨_, fun _ => rfl, ?_⟩
    intro x hx; cases hx
    exact ⟨c, hc, rfl, rfl, rfl, ht⟩
  | none => exact origChain_assign hn _ _ id

/-! ## The passes -/

/-- The last replacement on the command line that is set in the scope. -/
def repl (w : World α) (s : Nat) : List (Ov × Nat) → Option (Nat × Nat × Val α)
  | [] => none
  | (o, j) :: l =>
    if o.kind == .replace then
      match w.ovr s j with
      | some v => some (s, j, v)
      | none => repl w s l
    else repl w s l

/-- The replacement of a scope. -/
def replIn (w : World α) (s : Nat) : Option (Nat × Nat × Val α) :=
  repl w s w.ovs.zipIdx.reverse

theorem repl_scope {w : World α} {s s' j : Nat} {v : Val α} {l : List (Ov × Nat)}
    (h : repl w s l = some (s', j, v)) : s' = s := by
  induction l with
  | nil => cases h
  | cons p l ih =>
    obtain ⟨o, j'⟩ := p
    simp only [repl] at h
    split at h
    · split at h
      · cases h; rfl
      · exact ih h
    · exact ih h

/-- What matters of a stem. -/
def Stem.key (x : Stem α) : Vars × Val α × Nat × Option (Nat × Nat) := (x.vars, x.val, x.ver, x.ovr)

/-- The original as the stem. -/
def refKey (r : Ref α) : Vars × Val α × Nat × Option (Nat × Nat) := (r.vars, r.val, r.ver, none)

/-- A replacement as the stem. -/
def replKey (p : Nat × Nat × Val α) : Vars × Val α × Nat × Option (Nat × Nat) :=
  (.plain p.1, p.2.2, 1, some (p.1, p.2.1))

theorem replaceIn_global {w : World α} {s d : Nat} {stem : Option (Stem α)}
    {l : List (Ov × Nat)} (h : ∀ p ∈ l, p.1.vis = .global) :
    (replaceIn w s d stem l).map Stem.key = (repl w s l).map replKey := by
  induction l with
  | nil => rfl
  | cons p l ih =>
    obtain ⟨o, j⟩ := p
    simp only [replaceIn, repl, appliesTo_global (h (o, j) List.mem_cons_self), Bool.true_and]
    have ih := ih (fun p hp => h p (List.mem_cons_of_mem _ hp))
    split
    · cases w.ovr s j with
      | some v => rfl
      | none => exact ih
    · exact ih

/-- The original belongs to one of the scopes. -/
def hasOrig (o : Origin) (r : Option (Ref α)) (chain : List Nat) : Bool :=
  match r with
  | some x => chain.any (fun s => belongs o s x.vars)
  | none => false

theorem hasOrig_cons (o : Origin) (x : Ref α) (s : Nat) (l : List Nat) :
    hasOrig o (some x) (s :: l) = (belongs o s x.vars || hasOrig o (some x) l) := by
  simp [hasOrig]

theorem pass2_global {w : World α} (hg : AllGlobal w) {o : Origin} {r : Option (Ref α)} :
    ∀ (chain : List Nat) (d : Nat) (stem : Option (Stem α)),
      (pass2 w o r chain d stem).map Stem.key =
        match chain.findSome? (replIn w) with
        | some p => some (replKey p)
        | none => if hasOrig o r chain then r.map refKey else stem.map Stem.key := by
  intro chain
  induction chain with
  | nil => intro d stem; simp [pass2, hasOrig]; cases r <;> simp
  | cons s rest ih =>
    intro d stem
    simp only [pass2, List.findSome?_cons]
    have hrep := replaceIn_global (w := w) (s := s) (d := d + 1) (stem := stemAt w o r s stem)
      (l := w.ovs.zipIdx.reverse) (fun p hp => hg _ (mem_zip (List.mem_reverse.1 hp)))
    cases h1 : replIn w s with
    | some p =>
      rw [show repl w s w.ovs.zipIdx.reverse = some p from h1] at hrep
      cases h2 : replaceIn w s (d + 1) (stemAt w o r s stem) w.ovs.zipIdx.reverse with
      | none => rw [h2] at hrep; cases hrep
      | some x => rw [h2] at hrep; exact hrep
    | none =>
      rw [show repl w s w.ovs.zipIdx.reverse = none from h1] at hrep
      cases h2 : replaceIn w s (d + 1) (stemAt w o r s stem) w.ovs.zipIdx.reverse with
      | some x => rw [h2] at hrep; cases hrep
      | none =>
        simp only
        rw [ih]
        cases hf : rest.findSome? (replIn w) with
        | some p => rfl
        | none =>
          simp only
          cases r with
          | none => simp [hasOrig, stemAt]
          | some x =>
            rw [hasOrig_cons]
            simp only [stemAt]
            cases hh : hasOrig o (some x) rest with
            | true => simp
            | false =>
              by_cases hb : belongs o s x.vars = true
              · simp [hb, Stem.key, Stem.orig, refKey]
              · simp [Bool.eq_false_iff.2 hb]

/-- `addOne`, the value. -/
def addV (w : World α) (s : Nat) (cv : Val α) (o : Ov) (j : Nat) : Val α :=
  if o.kind == .replace then cv
  else
    match w.ovr s j with
    | some (some ns) => addTo o.kind cv ns
    | _ => cv

/-- `addIn`, the value. -/
def addInV (w : World α) (s : Nat) (sovr : Option (Nat × Nat)) :
    Bool → Val α → List (Ov × Nat) → Val α
  | _, cv, [] => cv
  | skip, cv, (o, j) :: l =>
    if skip then addInV w s sovr (if sovr == some (s, j) then false else skip) cv l
    else addInV w s sovr skip (addV w s cv o j) l

/-- `pass3`, the value. -/
def pass3V (w : World α) (sovr : Option (Nat × Nat)) : List Nat → Val α → Val α
  | [], cv => cv
  | s :: rest, cv =>
    pass3V w sovr rest (addInV w s sovr (skips sovr s) cv w.ovs.zipIdx)

theorem addOne_cv {w : World α} {s d : Nat} {st : St α} {o : Ov} {j : Nat} :
    (addOne w s d st o j).cv = addV w s st.cv o j := by
  unfold addOne addV
  split
  · rfl
  · cases w.ovr s j with
    | none => rfl
    | some v =>
      cases v with
      | none => cases hv : st.vars with
        | none => rfl
        | some x => simp only; split <;> rfl
      | some ns => cases hv : st.vars with
        | none => rfl
        | some x => simp only; split <;> rfl

theorem addIn_cv {w : World α} {s d : Nat} {sovr : Option (Nat × Nat)} :
    ∀ (l : List (Ov × Nat)) (skip : Bool) (st : St α), (∀ p ∈ l, p.1.vis = .global) →
      (addIn w s d sovr skip st l).cv = addInV w s sovr skip st.cv l := by
  intro l
  induction l with
  | nil => intro skip st _; simp [addIn, addInV]
  | cons p l ih =>
    intro skip st h
    obtain ⟨o, j⟩ := p
    have ih := fun sk st => ih sk st (fun p hp => h p (List.mem_cons_of_mem _ hp))
    simp only [addIn, addInV, appliesTo_global (h (o, j) List.mem_cons_self), if_true]
    cases skip with
    | true => simp only [if_true]; exact ih _ _
    | false => simp only [Bool.false_eq_true, if_false]; rw [ih, addOne_cv]

theorem pass3_cv {w : World α} (hg : AllGlobal w) {sovr : Option (Nat × Nat)} :
    ∀ (chain : List Nat) (d : Nat) (st : St α),
      (pass3 w sovr chain d st).cv = pass3V w sovr chain st.cv := by
  intro chain
  induction chain with
  | nil => intro d st; rfl
  | cons s rest ih =>
    intro d st
    simp only [pass3, pass3V]
    rw [ih, addIn_cv _ _ _ (fun p hp => hg _ (mem_zip hp))]

/-- Nothing is overridden in these scopes. -/
def Unset (w : World α) (pre : List Nat) : Prop :=
  ∀ s ∈ pre, ∀ p ∈ w.ovs.zipIdx, w.ovr s p.2 = none

theorem addInV_unset {w : World α} {s : Nat} {sovr : Option (Nat × Nat)} :
    ∀ (l : List (Ov × Nat)) (skip : Bool) (cv : Val α), (∀ p ∈ l, w.ovr s p.2 = none) →
      addInV w s sovr skip cv l = cv := by
  intro l
  induction l with
  | nil => intro skip cv _; simp [addInV]
  | cons p l ih =>
    intro skip cv h
    obtain ⟨o, j⟩ := p
    have ih := fun sk cv => ih sk cv (fun p hp => h p (List.mem_cons_of_mem _ hp))
    simp only [addInV, ih]
    have := h (o, j) List.mem_cons_self
    simp only at this
    simp [addV, this]

theorem pass3V_unset {w : World α} {sovr : Option (Nat × Nat)} {pre l : List Nat}
    (h : Unset w pre) (cv : Val α) : pass3V w sovr (pre ++ l) cv = pass3V w sovr l cv := by
  induction pre generalizing cv with
  | nil => rfl
  | cons s pre ih =>
    simp only [List.cons_append, pass3V]
    rw [addInV_unset _ _ _ (h s List.mem_cons_self)]
    exact ih (fun s' hs => h s' (List.mem_cons_of_mem _ hs)) cv

theorem repl_unset {w : World α} {s : Nat} {l : List (Ov × Nat)}
    (h : ∀ p ∈ l, w.ovr s p.2 = none) : repl w s l = none := by
  induction l with
  | nil => rfl
  | cons p l ih =>
    obtain ⟨o, j⟩ := p
    have h1 := h (o, j) List.mem_cons_self
    simp only at h1
    simp only [repl, h1, ih (fun p hp => h p (List.mem_cons_of_mem _ hp))]
    simp

theorem findSome_unset {w : World α} {pre l : List Nat} (h : Unset w pre) :
    (pre ++ l).findSome? (replIn w) = l.findSome? (replIn w) := by
  induction pre with
  | nil => rfl
  | cons s pre ih =>
    simp only [List.cons_append, List.findSome?_cons]
    have : replIn w s = none :=
      repl_unset (fun p hp => h s List.mem_cons_self p (List.mem_reverse.1 hp))
    rw [this]
    exact ih (fun s' hs => h s' (List.mem_cons_of_mem _ hs))

theorem pass1_some {w : World α} {o : Origin} {r : Option (Ref α)} :
    ∀ (l : List Nat) (x : Vars × Option Nat) (v : Vars),
      pass1 w o r l (some x) = some v → v = x.1 := by
  intro l
  induction l with
  | nil => intro x v h; cases h
  | cons s rest ih =>
    intro x v h
    rw [pass1, show innerAt w o r s (some x) = some x from rfl] at h
    by_cases hs : setIn w s (some x) = true
    · rw [if_pos hs] at h; cases h; rfl
    · rw [if_neg hs] at h; exact ih x v h

/-- The first pass. -/
theorem pass1_none {w : World α} (hg : AllGlobal w) {o : Origin} {r : Option (Ref α)} :
    ∀ (l : List Nat) (v : Vars), pass1 w o r l none = some v →
      ∃ pre s rest, l = pre ++ s :: rest ∧ Unset w pre ∧
        (∀ x s', r = some x → s' ∈ pre → belongs o s' x.vars = false) ∧
        (v = .plain s ∨ ∃ x n, r = some x ∧ x.vars = v ∧ v = .pattern s n) := by
  intro l
  induction l with
  | nil => intro v h; cases h
  | cons s rest ih =>
    intro v h
    simp only [pass1] at h
    have hb : ∀ x, belongs o s x → x = .plain s ∨ ∃ n, x = .pattern s n := by
      intro x hx
      cases x with
      | target t => cases hx
      | plain s' => simp only [belongs, beq_iff_eq] at hx; subst hx; exact .inl rfl
      | pattern s' n =>
        simp only [belongs, Bool.and_eq_true, beq_iff_eq] at hx
        obtain ⟨_, rfl⟩ := hx; exact .inr ⟨n, rfl⟩
    cases hi : innerAt w o r s none with
    | some y =>
      have hy : ∃ x, r = some x ∧ belongs o s x.vars = true ∧ y.1 = x.vars := by
        simp only [innerAt] at hi
        split at hi
        · rename_i x
          split at hi
          · rename_i hbx; cases hi; exact ⟨x, rfl, hbx, rfl⟩
          · cases hi
        · cases hi
      obtain ⟨x, hx1, hx2, hx3⟩ := hy
      rw [hi] at h
      have hv : v = y.1 := by
        split at h
        · cases h; rfl
        · exact pass1_some _ _ _ h
      refine ⟨[], s, rest, rfl, fun _ h' => (by cases h'), fun _ _ _ h' => (by cases h'), ?_⟩
      rcases hb _ hx2 with hp | ⟨n, hp⟩
      · exact .inl (by rw [hv, hx3, hp])
      · exact .inr ⟨x, n, hx1, by rw [hv, hx3], by rw [hv, hx3, hp]⟩
    | none =>
      rw [hi] at h
      split at h
      · cases h
        exact ⟨[], s, rest, rfl, fun _ h' => (by cases h'), fun _ _ _ h' => (by cases h'), .inl rfl⟩
      · rename_i hany
        obtain ⟨pre, s', rest', h1, h2, h3, h4⟩ := ih v h
        refine ⟨s :: pre, s', rest', by rw [h1]; rfl, ?_, ?_, h4⟩
        · intro s'' hs'' p hp
          rcases List.mem_cons.1 hs'' with rfl | hs''
          · cases hov : w.ovr s'' p.2 with
            | none => rfl
            | some z =>
              exfalso
              apply hany
              rw [setIn, List.any_eq_true]
              exact ⟨p, hp, by
                rw [appliesTo_global (hg _ (mem_zip hp)), hov]; rfl⟩
          · exact h2 s'' hs'' p hp
        · intro x s'' hx hs''
          rcases List.mem_cons.1 hs'' with rfl | hs''
          · subst hx
            simp only [innerAt] at hi
            split at hi
            · cases hi
            · rename_i hbx; simpa using hbx
          · exact h3 x s'' hx hs''

/-- The scopes from the innermost value outwards. -/
def chainOf (w : World α) (base : Nat → Nat) : Vars → List Nat
  | .target t => w.chain (base t)
  | .plain s => w.chain s
  | .pattern s _ => w.chain s

theorem pos_zero {s : Nat} {l : List Nat} (h : pos s l = 0) : l = [] ∨ ∃ r, l = s :: r := by
  cases l with
  | nil => exact .inl rfl
  | cons x l =>
    simp only [pos] at h
    split at h
    · rename_i hx; subst hx; exact .inr ⟨l, rfl⟩
    · cases h

/-- From where the lookups with this innermost value are made. -/
theorem inner_chain {w : World α} (ht : w.Tree) (hg : AllGlobal w) {base : Nat → Nat}
    {maps : Maps α} {o : Origin} (hbase : ∀ t ∈ o.own, o.base = base t)
    (hkeys : o.keys = [] → o.own = []) {r : Option (Ref α)}
    (hr : ∀ x, r = some x → From maps o (w.chain o.base) x) {v : Vars}
    (h : pass1 w o r (w.chain o.base) (startInner w o r) = some v) :
    ∃ pre, w.chain o.base = pre ++ chainOf w base v ∧ Unset w pre ∧
      (∀ x s', r = some x → s' ∈ pre → belongs o s' x.vars = false) ∧
      (∀ x, r = some x → ∀ t, x.vars = .target t → v = .target t) ∧
      (∀ t, v = .target t → ∃ x, r = some x ∧ x.vars = v) ∧
      (∀ s n, v = .pattern s n → ∃ x, r = some x ∧ x.vars = v) := by
  obtain ⟨rr, hrr⟩ := Tree.head ht o.base
  cases hs : spec w o r with
  | none =>
    rw [startInner, hs] at h
    obtain ⟨pre, s, rest, h1, h2, h3, h4⟩ := pass1_none hg _ _ h
    have hc : w.chain s = s :: rest := Tree.suffix' ht (s := o.base) ⟨pre, h1.symm⟩
    have hco : chainOf w base v = s :: rest := by
      rcases h4 with rfl | ⟨x, n, _, _, rfl⟩
      · exact hc
      · exact hc
    refine ⟨pre, by rw [hco]; exact h1, h2, h3, ?_, ?_, ?_⟩
    · intro x hx t hv
      exfalso
      obtain ⟨c, _, _, _, _, g5⟩ := hr x hx
      rw [hv] at g5
      have hk : o.keys ≠ [] := by intro hk; rw [hkeys hk] at g5; cases g5
      rw [hx] at hs
      simp only [spec] at hs
      split at hs
      · cases hs
      · rename_i hts
        apply hts
        simp only [targetspec, origDepth, hv, Origin.baseDepth, if_neg hk]
        simp only [hk, ne_eq, not_false_eq_true, decide_true, Bool.true_and, decide_eq_true_eq]
        split <;> omega
    · intro t hv
      rcases h4 with rfl | ⟨x, n, hx, hxv, h5⟩
      · cases hv
      · rw [hv] at h5; cases h5
    · intro s' n' hv
      rcases h4 with rfl | ⟨x, n, hx, hxv, h5⟩
      · cases hv
      · exact ⟨x, hx, hxv⟩
  | some x =>
    rw [startInner, hs] at h
    have hv : v = x.vars := pass1_some _ _ _ h
    have hx : r = some x := by
      simp only [spec] at hs
      split at hs
      · rename_i y
        split at hs
        · cases hs; rfl
        · cases hs
      · cases hs
    have hts : targetspec w o x = true := by
      rw [hx] at hs
      simp only [spec] at hs
      split at hs
      · assumption
      · cases hs
    simp only [targetspec, Bool.and_eq_true, decide_eq_true_eq] at hts
    obtain ⟨hk, hd⟩ := hts
    have hco : chainOf w base v = w.chain o.base := by
      rw [hv]
      obtain ⟨c, _, _, _, _, g5⟩ := hr x hx
      cases hxv : x.vars with
      | target t =>
        rw [hxv] at g5
        simp only [chainOf, hbase t g5]
      | plain s =>
        simp only [origDepth, hxv, if_neg hk] at hd
        have hp : pos s (w.chain o.base) = 0 := by
          cases hn : x.val with
          | some l => rw [hn] at hd; simp only [Option.isSome_some, if_true] at hd; omega
          | none =>
            rw [hn] at hd
            simp only [Option.isSome_none, Bool.false_eq_true, if_false, Origin.baseDepth,
              if_neg hk] at hd
            split at hd <;> omega
        rcases pos_zero hp with h0 | ⟨r', h0⟩
        · rw [hrr] at h0; cases h0
        · rw [hrr] at h0; injection h0 with h0; simp only [chainOf, h0]
      | pattern s n =>
        simp only [origDepth, hxv] at hd
        have hp : pos s (w.chain o.base) = 0 := by
          cases hn : x.val with
          | some l =>
            rw [hn] at hd
            simp only [Option.isSome_some, if_true] at hd
            exfalso
            split at hd
            · split at hd <;> omega
            · omega
          | none =>
            rw [hn] at hd
            simp only [Option.isSome_none, Bool.false_eq_true, if_false, Origin.baseDepth,
              if_neg hk] at hd
            split at hd
            · split at hd <;> split at hd <;> omega
            · split at hd <;> omega
        rcases pos_zero hp with h0 | ⟨r', h0⟩
        · rw [hrr] at h0; cases h0
        · rw [hrr] at h0; injection h0 with h0; simp only [chainOf, h0]
    refine ⟨[], by rw [hco]; rfl, fun _ h' => (by cases h'), fun _ _ _ h' => (by cases h'), ?_, ?_, ?_⟩
    · intro y hy t hyv
      rw [hx] at hy; cases hy
      rw [hv]; exact hyv
    · intro t hvt; exact ⟨x, hx, hv.symm⟩
    · intro s n hvt; exact ⟨x, hx, hv.symm⟩

/-- If the original is target-specific. -/
theorem spec_target {w : World α} {maps : Maps α} {o : Origin}
    (hkeys : o.keys = [] → o.own = []) {x : Ref α} {chain : List Nat}
    (hr : From maps o chain x) {t : Nat} (hv : x.vars = .target t) :
    spec w o (some x) = some x := by
  obtain ⟨c, _, _, _, _, g5⟩ := hr
  rw [hv] at g5
  have hk : o.keys ≠ [] := by intro hk; rw [hkeys hk] at g5; cases g5
  have : targetspec w o x = true := by
    simp only [targetspec, origDepth, hv, Origin.baseDepth, if_neg hk]
    simp only [hk, ne_eq, not_false_eq_true, decide_true, Bool.true_and, decide_eq_true_eq]
    split <;> omega
  simp only [spec, this, if_true]

/-- The stem: the innermost replacement or else the original. -/
theorem stem_key {w : World α} (hg : AllGlobal w) {maps : Maps α} {o : Origin}
    (hkeys : o.keys = [] → o.own = []) {r : Option (Ref α)}
    (hr : ∀ x, r = some x → From maps o (w.chain o.base) x) :
    (pass2 w o r (w.chain o.base) o.baseDepth (startStem w o r)).map Stem.key =
      match (w.chain o.base).findSome? (replIn w) with
      | some p => some (replKey p)
      | none => r.map refKey := by
  rw [pass2_global hg]
  cases (w.chain o.base).findSome? (replIn w) with
  | some p => rfl
  | none =>
    simp only
    cases r with
    | none => simp [startStem, spec, hasOrig]
    | some x =>
      have hx := hr x rfl
      cases hv : x.vars with
      | target t =>
        have : (startStem w o (some x)).map Stem.key = (some x).map refKey := by
          rw [startStem, spec_target hkeys hx hv]; rfl
        rw [this]; split <;> rfl
      | plain s =>
        obtain ⟨c, _, _, _, _, g5⟩ := hx
        rw [hv] at g5
        rw [if_pos]
        simp only [hasOrig, List.any_eq_true]
        exact ⟨s, g5, by simp [belongs, hv]⟩
      | pattern s n =>
        obtain ⟨c, _, _, _, _, g5⟩ := hx
        rw [hv] at g5
        rw [if_pos]
        simp only [hasOrig, List.any_eq_true]
        exact ⟨s, g5.1, by simp [belongs, hv, g5.2]⟩

/-- The replacement in a set of variables. -/
def replOf (w : World α) : Vars → Option (Nat × Nat × Val α)
  | .plain s => replIn w s
  | _ => none

/-- What the ledger says about an entry for `v`. -/
def OEntryOk (w : World α) (maps : Maps α) (base : Nat → Nat) (L : Vars → Nat → Val α)
    (v : Vars) (e : Entry α) : Prop :=
  e.bver = 0 ∧
  match e.svars with
  | none => e.sver = 0 ∧ e.val = pass3V w none (chainOf w base v) none
  | some m =>
    match replOf w m with
    | some p => e.sver = 1 ∧ e.val = pass3V w (some (p.1, p.2.1)) (chainOf w base v) p.2.2
    | none => ∃ c, maps m = some c ∧ e.sver ≤ c.ver ∧
        e.val = pass3V w none (chainOf w base v) (L m e.sver)

/-- The invariant for overrides. -/
structure OInv (w : World α) (maps : Maps α) (base : Nat → Nat) (oc : Cache Vars α)
    (L : Vars → Nat → Val α) : Prop where
  led : ∀ m c, maps m = some c → L m c.ver = c.val
  ent : ∀ v e, oc v = some e → OEntryOk w maps base L v e

/-- `override` without the cache. -/
def freshOverride (w : World α) (o : Origin) (orig : Option (Ref α)) : Result α :=
  match pass1 w o orig (w.chain o.base) (startInner w o orig) with
  | none => orig.map (fun r => (r.store, r.val))
  | some inner =>
    let stem := pass2 w o orig (w.chain o.base) o.baseDepth (startStem w o orig)
    some (.override inner,
      (pass3 w (stemOvr stem) (w.chain o.base) o.baseDepth (startSt stem)).cv)

/-- The value, in terms of what the cache is checked with. -/
theorem cv_eq {w : World α} (ht : w.Tree) (hg : AllGlobal w) {base : Nat → Nat}
    {maps : Maps α} {o : Origin} (hbase : ∀ t ∈ o.own, o.base = base t)
    (hkeys : o.keys = [] → o.own = []) {r : Option (Ref α)}
    (hr : ∀ x, r = some x → From maps o (w.chain o.base) x) {v : Vars}
    (h : pass1 w o r (w.chain o.base) (startInner w o r) = some v)
    {stem : Option (Stem α)}
    (hstem : stem = pass2 w o r (w.chain o.base) o.baseDepth (startStem w o r)) (d : Nat)
    {L : Vars → Nat → Val α} (hL : ∀ m c, maps m = some c → L m c.ver = c.val) :
    OEntryOk w maps base L v
      ⟨(pass3 w (stemOvr stem) (w.chain o.base) o.baseDepth (startSt stem)).cv, d, 0,
        stem.map (·.vars), stemVerO stem⟩ := by
  obtain ⟨pre, h1, h2, _⟩ := inner_chain ht hg hbase hkeys hr h
  have hk := stem_key hg hkeys hr
  rw [← hstem, h1, findSome_unset h2] at hk
  rw [pass3_cv hg, h1, pass3V_unset h2]
  refine ⟨rfl, ?_⟩
  cases hf : (chainOf w base v).findSome? (replIn w) with
  | some p =>
    rw [hf] at hk
    cases hs : stem with
    | none => rw [hs] at hk; cases hk
    | some x =>
      rw [hs] at hk
      simp only [Option.map_some, Stem.key, replKey, Option.some.injEq, Prod.mk.injEq] at hk
      obtain ⟨k1, k2, k3, k4⟩ := hk
      obtain ⟨s, hs1, hs2⟩ := List.exists_of_findSome?_eq_some hf
      have hps : p.1 = s := repl_scope (s' := p.1) (j := p.2.1) (v := p.2.2) hs2
      have hro : replOf w x.vars = some p := by rw [k1, hps]; exact hs2
      simp only [Option.map_some, hro, stemVerO, k3, stemOvr, k4, startSt, k2, and_self]
  | none =>
    rw [hf] at hk
    cases hs : stem with
    | none =>
      simp only [Option.map_none, stemVerO, stemOvr, startSt, and_self]
    | some x =>
      rw [hs] at hk
      cases hrr : r with
      | none => rw [hrr] at hk; cases hk
      | some y =>
        rw [hrr] at hk
        simp only [Option.map_some, Stem.key, refKey, Option.some.injEq, Prod.mk.injEq] at hk
        obtain ⟨k1, k2, k3, k4⟩ := hk
        obtain ⟨c, g1, g2, g3, g4, g5⟩ := hr y hrr
        have hro : replOf w y.vars = none := by
          cases hyv : y.vars with
          | target t => rfl
          | pattern s n => rfl
          | plain s =>
            rw [hyv, h1] at g5
            have := List.findSome?_eq_none_iff.1 ((findSome_unset h2).trans hf) s g5
            exact this
        simp only [Option.map_some, stemVerO, k3, stemOvr, k4, startSt, k2, k1, hro]
        exact ⟨c, g1, by omega, by rw [g4, hL _ _ g1, g3]⟩

/-- Lookup with overrides: there is no failure and the value is current. -/
theorem override_ok {w : World α} (ht : w.Tree) (hg : AllGlobal w) {base : Nat → Nat}
    {maps : Maps α} {o : Origin} (hbase : ∀ t ∈ o.own, o.base = base t)
    (hkeys : o.keys = [] → o.own = []) {r : Option (Ref α)}
    (hr : ∀ x, r = some x → From maps o (w.chain o.base) x)
    {oc : Cache Vars α} {L : Vars → Nat → Val α} (hi : OInv w maps base oc L) :
    ∃ oc', override w o r oc = some (freshOverride w o r, oc') ∧ OInv w maps base oc' L := by
  unfold override freshOverride
  cases h : pass1 w o r (w.chain o.base) (startInner w o r) with
  | none => exact ⟨oc, rfl, hi⟩
  | some v =>
    simp only
    have hcv := fun d => cv_eq ht hg hbase hkeys hr h rfl d hi.led
    generalize hst : pass2 w o r (w.chain o.base) o.baseDepth (startStem w o r) = stem at hcv
    generalize hcvv : (pass3 w (stemOvr stem) (w.chain o.base) o.baseDepth (startSt stem)).cv = cv at hcv
    have hput : ∀ e, OEntryOk w maps base L v e → OInv w maps base (oc.put v e) L := by
      intro e he
      refine ⟨hi.led, ?_⟩
      intro v' e' h'
      simp only [Cache.put] at h'
      split at h'
      · rename_i hv; cases h'; subst hv; exact he
      · exact hi.ent v' e' h'
    unfold insert
    cases hp : oc v with
    | none =>
      refine ⟨_, rfl, hput _ ?_⟩
      exact hcv 1
    | some e =>
      have he := hi.ent v e hp
      simp only
      by_cases hhit : e.bver = 0 ∧ e.svars = stem.map (·.vars) ∧ e.sver = stemVerO stem
      · rw [if_pos hhit]
        refine ⟨oc, ?_, hi⟩
        have hval : e.val = cv := by
          have h1 := he.2
          have h2 := (hcv 1).2
          rw [hhit.2.1, hhit.2.2] at h1
          simp only at h2
          cases hs : stem with
          | none => rw [hs] at h1 h2; exact h1.2.trans h2.2.symm
          | some x =>
            rw [hs] at h1 h2
            simp only [Option.map_some] at h1 h2
            cases hro : replOf w x.vars with
            | some p => rw [hro] at h1 h2; exact h1.2.trans h2.2.symm
            | none =>
              rw [hro] at h1 h2
              obtain ⟨_, _, _, h1⟩ := h1
              obtain ⟨_, _, _, h2⟩ := h2
              exact h1.trans h2.symm
        simp only [Option.map_some, hval]
      · rw [if_neg hhit, if_neg (by have := he.1; omega)]
        rw [if_neg]
        · exact ⟨_, rfl, hput _ (hcv (e.ver + 1))⟩
        · rintro ⟨hs1, hs2⟩
          have h1 := he.2
          have h2 := (hcv 1).2
          rw [hs1] at h1
          simp only at h2
          cases hs : stem with
          | none => rw [hs] at h1 hs2; have := h1.1; omega
          | some x =>
            rw [hs] at h1 h2 hs2
            simp only [Option.map_some] at h1 h2
            cases hro : replOf w x.vars with
            | some p => rw [hro] at h1 h2; have := h1.1; have := h2.1; omega
            | none =>
              -- The version in the entry is not newer than the current one.
              rw [hro] at h1
              obtain ⟨c, g1, g2, _⟩ := h1
              have hk := stem_key hg hkeys hr
              rw [hst, hs] at hk
              have : x.ver = c.ver := by
                cases hf : (w.chain o.base).findSome? (replIn w) with
                | some p =>
                  rw [hf] at hk
                  simp only [Option.map_some, Stem.key, replKey, Option.some.injEq,
                    Prod.mk.injEq] at hk
                  obtain ⟨s, _, hs2'⟩ := List.exists_of_findSome?_eq_some hf
                  have hps : p.1 = s := repl_scope (s' := p.1) (j := p.2.1) (v := p.2.2) hs2'
                  rw [hk.1, hps] at hro
                  rw [show replOf w (.plain s) = replIn w s from rfl, hs2'] at hro
                  cases hro
                | none =>
                  rw [hf] at hk
                  cases hrr : r with
                  | none => rw [hrr] at hk; cases hk
                  | some y =>
                    rw [hrr] at hk
                    simp only [Option.map_some, Stem.key, refKey, Option.some.injEq,
                      Prod.mk.injEq] at hk
                    obtain ⟨c', g1', _, _, g4', _⟩ := hr y hrr
                    rw [hk.1, g1'] at g1
                    cases g1
                    rw [hk.2.2.1, g4']
              simp only [stemVerO] at hs2
              omega

/-- An assignment. -/
theorem set_oinv {w : World α} {maps : Maps α} {base : Nat → Nat} {oc : Cache Vars α}
    {L : Vars → Nat → Val α} (hi : OInv w maps base oc L) (m : Vars) (k : Kind) (v : Val α) :
    ∃ L', OInv w (maps.set m k v) base oc L' := by
  let ver := match maps m with | some c => c.ver + 1 | none => 1
  have hset : (maps.set m k v) m = some ⟨k, v, ver⟩ := if_pos rfl
  have hother : ∀ m', m' ≠ m → (maps.set m k v) m' = maps m' := fun m' h => if_neg h
  have hold : ∀ c, maps m = some c → ver = c.ver + 1 := by
    intro c hc; show (match maps m with | some c => c.ver + 1 | none => 1) = _; rw [hc]
  refine ⟨fun m' n => if m' = m ∧ n = ver then v else L m' n, ?_, ?_⟩
  · intro m' c hc
    by_cases hm : m' = m
    · subst hm; rw [hset] at hc; cases hc; exact if_pos ⟨rfl, rfl⟩
    · rw [hother m' hm] at hc
      show (if _ then _ else _) = _
      rw [if_neg (fun h => hm h.1)]; exact hi.led m' c hc
  · intro v' e he
    obtain ⟨h1, h2⟩ := hi.ent v' e he
    refine ⟨h1, ?_⟩
    cases hs : e.svars with
    | none => rw [hs] at h2; exact h2
    | some m' =>
      rw [hs] at h2
      simp only at h2 ⊢
      cases hro : replOf w m' with
      | some p => rw [hro] at h2; exact h2
      | none =>
        rw [hro] at h2
        obtain ⟨c, g1, g2, g3⟩ := h2
        by_cases hm : m' = m
        · subst hm
          have := hold c g1
          refine ⟨_, hset, by show e.sver ≤ ver; omega, ?_⟩
          rw [if_neg (by intro h; have := h.2; omega)]; exact g3
        · refine ⟨c, by rw [hother m' hm]; exact g1, g2, ?_⟩
          rw [if_neg (fun h => hm h.1)]; exact g3

/-! ## Without pattern-specific values -/

/-- There are no pattern-specific values. -/
def NoPat (maps : Maps α) : Prop := ∀ s n, maps (.pattern s n) = none

/-- The innermost plain value. -/
def firstPlain (maps : Maps α) (chain : List Nat) : Option (Vars × Nat) :=
  chain.findSome? fun s => (maps (.plain s)).map fun c => (.plain s, c.ver)

theorem findPat_nopat {w : World α} {maps : Maps α} (hn : NoPat maps) (s k : Nat) :
    ∀ l, findPat w maps s k l = none := by
  intro l
  induction l with
  | nil => rfl
  | cons n l ih => simp only [findPat, hn s n, ih]; split <;> rfl

theorem origIn_nopat {w : World α} {maps : Maps α} (hn : NoPat maps) {s : Nat}
    {rest : List Nat} {out : List Nat → PCache α → Option (Option (Ref α) × PCache α)}
    (hout : ∀ cur pc r pc', out cur pc = some (r, pc') →
      r.map (fun x => (x.vars, x.ver)) = firstPlain maps rest) :
    ∀ (tries cur : List Nat) (pc : PCache α) (r : Option (Ref α)) (pc' : PCache α),
      origIn w maps s out cur tries pc = some (r, pc') →
      r.map (fun x => (x.vars, x.ver)) = firstPlain maps (s :: rest) := by
  intro tries
  induction tries with
  | nil =>
    intro cur pc r pc' h
    simp only [origIn] at h
    simp only [firstPlain, List.findSome?_cons]
    cases hp : maps (.plain s) with
    | some c => rw [hp] at h; cases h; rfl
    | none => rw [hp] at h; exact hout cur pc r pc' h
  | cons k ks ih =>
    intro cur pc r pc' h
    simp only [origIn, findPat_nopat hn] at h
    exact ih cur pc r pc' h

theorem origChain_nopat {w : World α} {maps : Maps α} (hn : NoPat maps) :
    ∀ (chain cur : List Nat) (pc : PCache α) (r : Option (Ref α)) (pc' : PCache α),
      origChain w maps chain cur pc = some (r, pc') →
      r.map (fun x => (x.vars, x.ver)) = firstPlain maps chain := by
  intro chain
  induction chain with
  | nil => intro cur pc r pc' h; cases h; rfl
  | cons s rest ih =>
    intro cur pc r pc' h
    exact origIn_nopat hn (fun cur pc r pc' h => ih cur pc r pc' h) cur cur pc r pc' h

/-- The stem for an innermost value, as far as the cache is concerned. -/
def desc (w : World α) (maps : Maps α) (base : Nat → Nat) (v : Vars) : Option (Vars × Nat) :=
  match (chainOf w base v).findSome? (replIn w) with
  | some p => some (.plain p.1, 1)
  | none =>
    match v with
    | .target t => (maps (.target t)).map fun c => (.target t, c.ver)
    | _ => firstPlain maps (chainOf w base v)

theorem desc_eq {w : World α} (ht : w.Tree) (hg : AllGlobal w) {base : Nat → Nat}
    {maps : Maps α} (hn : NoPat maps) {o : Origin} (hbase : ∀ t ∈ o.own, o.base = base t)
    (hkeys : o.keys = [] → o.own = []) {r : Option (Ref α)} {pc pc' : PCache α}
    (ho : original w maps o pc = some (r, pc'))
    (hr : ∀ x, r = some x → From maps o (w.chain o.base) x) {v : Vars}
    (h : pass1 w o r (w.chain o.base) (startInner w o r) = some v) :
    (pass2 w o r (w.chain o.base) o.baseDepth (startStem w o r)).map (fun x => (x.vars, x.ver)) =
      desc w maps base v := by
  obtain ⟨pre, h1, h2, h3, h4, h5, h6⟩ := inner_chain ht hg hbase hkeys hr h
  have hk := stem_key hg hkeys hr
  generalize pass2 w o r (w.chain o.base) o.baseDepth (startStem w o r) = stem at hk
  have hkk : stem.map (fun x => (x.vars, x.ver)) =
      (stem.map Stem.key).map (fun p => (p.1, p.2.2.1)) := by
    cases stem <;> rfl
  rw [hkk, hk, h1, findSome_unset h2]
  unfold desc
  cases hf : (chainOf w base v).findSome? (replIn w) with
  | some p => rfl
  | none =>
    simp only
    have hrk : (r.map refKey).map (fun p => (p.1, p.2.2.1)) = r.map (fun x => (x.vars, x.ver)) := by
      cases r <;> rfl
    rw [hrk]
    cases v with
    | target t =>
      obtain ⟨x, hx, hxv⟩ := h5 t rfl
      obtain ⟨c, g1, _, _, g4, _⟩ := hr x hx
      rw [hxv] at g1
      simp only [hx, Option.map_some, hxv, g1, g4]
    | pattern s n =>
      obtain ⟨x, hx, hxv⟩ := h6 s n rfl
      obtain ⟨c, g1, _⟩ := hr x hx
      rw [hxv, hn s n] at g1; cases g1
    | plain s =>
      simp only
      have hr2 : r.map (fun x => (x.vars, x.ver)) = firstPlain maps (w.chain o.base) := by
        unfold original at ho
        cases how : ownOf maps o.own with
        | some y =>
          rw [how] at ho
          simp only [Option.some.injEq, Prod.mk.injEq] at ho
          obtain ⟨t, c, _, _, hy⟩ := ownOf_some how
          have := h4 y ho.1.symm t (by rw [hy])
          cases this
        | none =>
          rw [how] at ho
          exact origChain_nopat hn _ _ _ _ _ ho
      rw [hr2, h1]
      cases hfp : firstPlain maps pre with
      | none =>
        simp only [firstPlain, List.findSome?_append] at hfp ⊢
        rw [hfp]; rfl
      | some y =>
        exfalso
        have hy : firstPlain maps (pre ++ chainOf w base (.plain s)) = some y := by
          simp only [firstPlain, List.findSome?_append] at hfp ⊢
          rw [hfp]; rfl
        rw [← h1, ← hr2] at hy
        obtain ⟨s', hs1, hs2⟩ := List.exists_of_findSome?_eq_some hfp
        cases hrr : r with
        | none => rw [hrr] at hy; cases hy
        | some x =>
          rw [hrr] at hy
          simp only [Option.map_some, Option.some.injEq] at hy
          simp only [Option.map_eq_some_iff] at hs2
          obtain ⟨c, _, hs2⟩ := hs2
          have hxv : x.vars = .plain s' := by rw [← hs2] at hy; injection hy
          have := h3 x s' hrr hs1
          rw [hxv] at this
          simp [belongs] at this

/-- The entry is up to date. -/
def Settled (w : World α) (maps : Maps α) (base : Nat → Nat) (oc : Cache Vars α) (v : Vars) : Prop :=
  ∃ e, oc v = some e ∧ e.bver = 0 ∧ e.svars = (desc w maps base v).map (·.1) ∧
    e.sver = (match desc w maps base v with | some p => p.2 | none => 0)

/-- Entries that are up to date stay as they are. -/
theorem override_keeps {w : World α} (ht : w.Tree) (hg : AllGlobal w) {base : Nat → Nat}
    {maps : Maps α} (hn : NoPat maps) {o : Origin} (hbase : ∀ t ∈ o.own, o.base = base t)
    (hkeys : o.keys = [] → o.own = []) {r : Option (Ref α)} {pc pc' : PCache α}
    (ho : original w maps o pc = some (r, pc'))
    (hr : ∀ x, r = some x → From maps o (w.chain o.base) x)
    {oc oc' : Cache Vars α} {res : Result α} (h : override w o r oc = some (res, oc')) :
    (∀ v, Settled w maps base oc v → oc' v = oc v) ∧
    (∀ v x, res = some (.override v, x) →
      Settled w maps base oc' v ∧ (oc' v).map (·.val) = some x) := by
  unfold override at h
  cases hp : pass1 w o r (w.chain o.base) (startInner w o r) with
  | none =>
    rw [hp] at h
    simp only [Option.some.injEq, Prod.mk.injEq] at h
    obtain ⟨h1, rfl⟩ := h
    refine ⟨fun _ _ => rfl, ?_⟩
    intro v x hv
    exfalso
    rw [hv] at h1
    cases hrr : r with
    | none => rw [hrr] at h1; cases h1
    | some y =>
      rw [hrr] at h1
      obtain ⟨c, _, g2, _⟩ := hr y hrr
      simp only [Option.map_some, Option.some.injEq, Prod.mk.injEq] at h1
      rw [g2] at h1; cases h1.1
  | some v0 =>
    rw [hp] at h
    simp only at h
    have hd := desc_eq ht hg hn hbase hkeys ho hr hp
    generalize pass2 w o r (w.chain o.base) o.baseDepth (startStem w o r) = stem at h hd
    generalize (pass3 w (stemOvr stem) (w.chain o.base) o.baseDepth (startSt stem)).cv = cv at h
    have hd1 : stem.map (·.vars) = (desc w maps base v0).map (·.1) := by
      rw [← hd]; cases stem <;> rfl
    have hd2 : stemVerO stem = (match desc w maps base v0 with | some p => p.2 | none => 0) := by
      rw [← hd]; cases stem <;> rfl
    have hnew : ∀ n, Settled w maps base (oc.put v0 ⟨cv, n, 0, stem.map (·.vars), stemVerO stem⟩) v0 :=
      fun n => ⟨_, if_pos rfl, rfl, hd1, hd2⟩
    have hold : Settled w maps base oc v0 →
        ∃ e, oc v0 = some e ∧ e.bver = 0 ∧ e.svars = stem.map (·.vars) ∧ e.sver = stemVerO stem := by
      rintro ⟨e, h1, h2, h3, h4⟩
      exact ⟨e, h1, h2, h3.trans hd1.symm, h4.trans hd2.symm⟩
    have hput : ∀ e, ¬ Settled w maps base oc v0 →
        ∀ v, Settled w maps base oc v → (oc.put v0 e) v = oc v := by
      intro e hn' v hv
      refine if_neg ?_
      rintro rfl; exact hn' hv
    unfold insert at h
    cases hov : oc v0 with
    | none =>
      rw [hov] at h
      simp only [Option.map_some, Option.some.injEq, Prod.mk.injEq] at h
      obtain ⟨rfl, rfl⟩ := h
      refine ⟨hput _ ?_, ?_⟩
      · intro hs
        obtain ⟨e, he, _⟩ := hs
        rw [hov] at he; cases he
      · intro v x hv
        cases hv
        exact ⟨hnew 1, by rw [show (oc.put v0 _) v0 = some _ from if_pos rfl]; rfl⟩
    | some e =>
      rw [hov] at h
      simp only at h
      by_cases hhit : e.bver = 0 ∧ e.svars = stem.map (·.vars) ∧ e.sver = stemVerO stem
      · rw [if_pos hhit] at h
        simp only [Option.map_some, Option.some.injEq, Prod.mk.injEq] at h
        obtain ⟨rfl, rfl⟩ := h
        refine ⟨fun _ _ => rfl, ?_⟩
        intro v x hv
        cases hv
        exact ⟨⟨e, hov, hhit.1, hhit.2.1.trans hd1, hhit.2.2.trans hd2⟩, by rw [hov]; rfl⟩
      · rw [if_neg hhit] at h
        split at h
        · cases h
        · split at h
          · cases h
          · simp only [Option.map_some, Option.some.injEq, Prod.mk.injEq] at h
            obtain ⟨rfl, rfl⟩ := h
            refine ⟨hput _ ?_, ?_⟩
            · intro hs
              obtain ⟨e', he, h1, h2, h3⟩ := hold hs
              rw [hov] at he; cases he
              exact hhit ⟨h1, h2, h3⟩
            · intro v x hv
              cases hv
              exact ⟨hnew _, by rw [show (oc.put v0 _) v0 = some _ from if_pos rfl]; rfl⟩

end Verif.VarCache
