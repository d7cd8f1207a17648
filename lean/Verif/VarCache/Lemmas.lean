import Verif.VarCache.Model

/-!
# Cached variable values: the pattern-specific prepend/append

Helper lemmas. A ledger records which value an object (`Store`) had when it was of
which version. An entry of the cache is a function of the value it is based on and of
the stem, both of the versions that are stored in the entry.
-/

namespace Verif.VarCache

open Verif.Lookup (Val Kind)

variable {α : Type}

/-- `origIn` without the cache. -/
def freshIn (w : World α) (maps : Maps α) (s : Nat)
    (out : List Nat → Option (Vars × Val α)) (cur : List Nat) :
    List Nat → Option (Vars × Val α)
  | [] =>
    match maps (.plain s) with
    | some c => some (.plain s, c.val)
    | none => out cur
  | k :: ks =>
    match findPat w maps s k (w.pats s) with
    | some (m, c) =>
      if c.kind ≠ .assign then
        some (m, Lookup.add c.kind ((freshIn w maps s out (k :: ks) ks).map (·.2)) c.val)
      else some (m, c.val)
    | none => freshIn w maps s out cur ks

/-- `origChain` without the cache. -/
def freshChain (w : World α) (maps : Maps α) : List Nat → List Nat → Option (Vars × Val α)
  | [], _ => none
  | s :: rest, ks => freshIn w maps s (fun cur => freshChain w maps rest cur) ks ks

/-- What an object holds and its version. -/
def content (maps : Maps α) (pc : PCache α) : Store → Option (Val α × Nat)
  | .map m => (maps m).map (fun c => (c.val, c.ver))
  | .pattern m k => (pc (m, k)).map (fun e => (e.val, e.ver))
  | .override _ => none

/-- The object in which the value from a given set of variables is, if in scope `s`
the keys `sel s` are tried. -/
def Right (w : World α) (maps : Maps α) (sel : Nat → List Nat) (v : Vars) (st : Store) : Prop :=
  match v with
  | .pattern s n =>
    ∃ c, maps v = some c ∧
      ((c.kind = .assign ∧ st = .map v) ∨
       (c.kind ≠ .assign ∧ ∃ k, (sel s).find? (w.pm s n) = some k ∧ st = .pattern v k))
  | _ => st = .map v

theorem Right.unique {w : World α} {maps : Maps α} {sel : Nat → List Nat} {v : Vars}
    {a b : Store} (ha : Right w maps sel v a) (hb : Right w maps sel v b) : a = b := by
  cases v with
  | target t => exact ha.trans hb.symm
  | plain s => exact ha.trans hb.symm
  | pattern s n =>
    obtain ⟨c, hc, ha⟩ := ha
    obtain ⟨c', hc', hb⟩ := hb
    rw [hc] at hc'; cases hc'
    rcases ha with ⟨h, rfl⟩ | ⟨h, k, hk, rfl⟩
    · rcases hb with ⟨_, rfl⟩ | ⟨h', _⟩
      · rfl
      · exact absurd h h'
    · rcases hb with ⟨h', _⟩ | ⟨_, k', hk', rfl⟩
      · exact absurd h' h
      · rw [hk] at hk'; cases hk'; rfl

/-- The keys tried for the stem of a value for key `k` in scope `s`. -/
def selFor (s k : Nat) (ks : List Nat) : Nat → List Nat :=
  fun s' => if s' = s then ks else k :: ks

/-- What the ledger says about an entry. -/
def EntryOk (w : World α) (maps : Maps α) (pc : PCache α) (tl : Nat → List Nat)
    (L : Store → Nat → Val α) (m : Vars) (k : Nat) (e : Entry α) : Prop :=
  ∃ s n c, m = .pattern s n ∧ maps m = some c ∧ c.kind ≠ .assign ∧ e.bver ≤ c.ver ∧
    match e.svars with
    | none => e.sver = 0 ∧ e.val = Lookup.add c.kind none (L (.map m) e.bver)
    | some v => ∃ st y n', Right w maps (selFor s k (tl k)) v st ∧
        content maps pc st = some (y, n') ∧ e.sver ≤ n' ∧
        e.val = Lookup.add c.kind (some (L st e.sver)) (L (.map m) e.bver)

/-- The invariant. -/
structure Inv (w : World α) (maps : Maps α) (pc : PCache α) (tl : Nat → List Nat)
    (L : Store → Nat → Val α) : Prop where
  led : ∀ st x n, content maps pc st = some (x, n) → L st n = x ∧ 1 ≤ n
  ent : ∀ m k e, pc (m, k) = some e → EntryOk w maps pc tl L m k e

/-- The type and name determine what follows. -/
def Keyed (tl : Nat → List Nat) (ks : List Nat) : Prop :=
  ∀ k r, (k :: r) <:+ ks → tl k = r

theorem Keyed.tail {tl : Nat → List Nat} {k : Nat} {ks : List Nat} (h : Keyed tl (k :: ks)) :
    Keyed tl ks :=
  fun k' r hr => h k' r (hr.trans (List.suffix_cons k ks))

theorem Keyed.head {tl : Nat → List Nat} {k : Nat} {ks : List Nat} (h : Keyed tl (k :: ks)) :
    tl k = ks := h k ks (List.suffix_refl _)

theorem Keyed.not_mem {tl : Nat → List Nat} {k : Nat} {ks : List Nat} (h : Keyed tl (k :: ks)) :
    k ∉ ks := by
  intro hk
  obtain ⟨a, b, rfl⟩ := List.append_of_mem hk
  have h1 := h.head
  have h2 := h k b ⟨k :: a, by simp⟩
  rw [h1] at h2
  have := congrArg List.length h2
  simp at this
  omega

theorem content_put {maps : Maps α} {pc : PCache α} {m : Vars} {k : Nat} {e : Entry α}
    (st : Store) :
    content maps (pc.put (m, k) e) st =
      if st = .pattern m k then some (e.val, e.ver) else content maps pc st := by
  cases st with
  | map m' => simp [content]
  | override m' => simp [content]
  | pattern m' k' =>
    by_cases h : m' = m ∧ k' = k
    · obtain ⟨rfl, rfl⟩ := h
      simp [content, Cache.put]
    · have : ¬ (Store.pattern m' k' = .pattern m k) := by
        intro h'; injection h' with a b; exact h ⟨a, b⟩
      rw [if_neg this]
      simp only [content, Cache.put]
      rw [if_neg (by intro h'; injection h' with a b; exact h ⟨a, b⟩)]

/-- The ledger with one more line. -/
def note (L : Store → Nat → Val α) (st : Store) (n : Nat) (v : Val α) : Store → Nat → Val α :=
  fun st' n' => if st' = st ∧ n' = n then v else L st' n'

theorem note_same {L : Store → Nat → Val α} {st : Store} {n : Nat} {v : Val α} :
    note L st n v st n = v := by simp [note]

theorem note_store {L : Store → Nat → Val α} {st st' : Store} {n n' : Nat} {v : Val α}
    (h : st' ≠ st) : note L st n v st' n' = L st' n' := by
  simp [note, h]

theorem note_ver {L : Store → Nat → Val α} {st st' : Store} {n n' : Nat} {v : Val α}
    (h : n' ≠ n) : note L st n v st' n' = L st' n' := by
  simp [note, h]

/-- An entry is written. -/
theorem put_inv {w : World α} {maps : Maps α} {pc : PCache α} {tl : Nat → List Nat}
    {L : Store → Nat → Val α} (hi : Inv w maps pc tl L) {s n k : Nat} {c : Cell α}
    (hm : maps (.pattern s n) = some c) (hk : c.kind ≠ .assign) {ver : Nat}
    (hver : 1 ≤ ver) (hnew : ∀ e, pc (.pattern s n, k) = some e → e.ver < ver)
    {stem : Option (Ref α)}
    (hst : ∀ x, stem = some x → content maps pc x.store = some (x.val, x.ver) ∧
      Right w maps (selFor s k (tl k)) x.vars x.store ∧ x.store ≠ .pattern (.pattern s n) k) :
    Inv w maps (pc.put (.pattern s n, k)
        ⟨Lookup.add c.kind (stem.map (·.val)) c.val, ver, c.ver, stem.map (·.vars), stemVer stem⟩)
      tl (note L (.pattern (.pattern s n) k) ver
        (Lookup.add c.kind (stem.map (·.val)) c.val)) := by
  have hmap := hi.led (.map (.pattern s n)) c.val c.ver (by simp [content, hm])
  constructor
  · intro st x n' h
    rw [content_put] at h
    by_cases h1 : st = .pattern (.pattern s n) k
    · rw [if_pos h1] at h
      cases h
      subst h1
      exact ⟨note_same, hver⟩
    · rw [if_neg h1] at h
      have := hi.led st x n' h
      exact ⟨by rw [note_store h1]; exact this.1, this.2⟩
  · intro m' k' e h
    simp only [Cache.put] at h
    by_cases h1 : (m', k') = (Vars.pattern s n, k)
    · rw [if_pos h1] at h
      injection h1 with h1 h2
      subst h1; subst h2
      cases h
      refine ⟨s, n, c, rfl, hm, hk, Nat.le_refl _, ?_⟩
      simp only
      rw [note_store (by simp), hmap.1]
      cases hs : stem with
      | none => exact ⟨rfl, rfl⟩
      | some x =>
        obtain ⟨hx1, hx2, hx3⟩ := hst x hs
        refine ⟨x.store, x.val, x.ver, hx2, ?_, Nat.le_refl _, ?_⟩
        · rw [content_put, if_neg hx3]; exact hx1
        · rw [note_store hx3]
          show _ = Lookup.add c.kind (some (L x.store x.ver)) c.val
          rw [(hi.led _ _ _ hx1).1]; rfl
    · rw [if_neg h1] at h
      obtain ⟨s', n', c', rfl, hm', hk', hb, hrest⟩ := hi.ent m' k' e h
      refine ⟨s', n', c', rfl, hm', hk', hb, ?_⟩
      rw [note_store (by simp)]
      cases hs : e.svars with
      | none =>
        rw [hs] at hrest
        exact hrest
      | some v =>
        rw [hs] at hrest
        obtain ⟨st, y, n'', hr, hc, hle, hv⟩ := hrest
        by_cases h2 : st = .pattern (.pattern s n) k
        · subst h2
          simp only [content, Option.map_eq_some_iff] at hc
          obtain ⟨e0, he0, hc⟩ := hc
          injection hc with hc1 hc2
          have hlt := hnew e0 he0
          refine ⟨_, Lookup.add c.kind (stem.map (·.val)) c.val, ver, hr, ?_, by omega, ?_⟩
          · rw [content_put, if_pos rfl]
          · rw [note_ver (by omega)]; exact hv
        · refine ⟨st, y, n'', hr, ?_, hle, ?_⟩
          · rw [content_put, if_neg h2]; exact hc
          · rw [note_store h2]; exact hv

/-- The stem of a value for key `k` in scope `s`, without the cache. -/
def freshStem (w : World α) (maps : Maps α) (tl : Nat → List Nat) (s k : Nat) :
    Option (Vars × Val α) :=
  freshIn w maps s (fun cur => freshChain w maps (w.chain s).tail cur) (k :: tl k) (tl k)

/-- Entries that are up to date, and so is everything they have been computed from. -/
inductive Cur (w : World α) (maps : Maps α) (pc : PCache α) (tl : Nat → List Nat) :
    Vars → Nat → Prop where
  | alone {s n k : Nat} {e : Entry α} {c : Cell α} (he : pc (.pattern s n, k) = some e)
      (hc : maps (.pattern s n) = some c) (hb : e.bver = c.ver)
      (hf : freshStem w maps tl s k = none) (hs : e.svars = none) (hv : e.sver = 0) :
      Cur w maps pc tl (.pattern s n) k
  | added {s n k : Nat} {e : Entry α} {c : Cell α} {v : Vars} {x y : Val α} {st : Store}
      (he : pc (.pattern s n, k) = some e)
      (hc : maps (.pattern s n) = some c) (hb : e.bver = c.ver)
      (hf : freshStem w maps tl s k = some (v, x)) (hs : e.svars = some v)
      (hr : Right w maps (selFor s k (tl k)) v st) (hv : content maps pc st = some (y, e.sver))
      (hst : ∀ m' k', st = .pattern m' k' → Cur w maps pc tl m' k') :
      Cur w maps pc tl (.pattern s n) k

/-- Writing another entry changes nothing. -/
theorem Cur.put {w : World α} {maps : Maps α} {pc : PCache α} {tl : Nat → List Nat}
    {m0 : Vars} {k0 : Nat} (hn : ¬ Cur w maps pc tl m0 k0) {e0 : Entry α} {m : Vars} {k : Nat}
    (h : Cur w maps pc tl m k) : Cur w maps (pc.put (m0, k0) e0) tl m k := by
  have key : ∀ {m' k'}, Cur w maps pc tl m' k' →
      (pc.put (m0, k0) e0) (m', k') = pc (m', k') := by
    intro m' k' h'
    simp only [Cache.put]
    rw [if_neg (by intro h2; cases h2; exact hn h')]
  induction h with
  | alone he hc hb hf hs hv =>
    exact .alone ((key (.alone he hc hb hf hs hv)).trans he) hc hb hf hs hv
  | @added s n k e c v x y st he hc hb hf hs hr hv hst ih =>
    refine .added (y := y) ((key (.added he hc hb hf hs hr hv hst)).trans he) hc hb hf hs hr ?_ ih
    rw [content_put, if_neg]
    · exact hv
    · intro h2; exact hn (hst _ _ h2)

/-- The entries that are up to date stay as they are. -/
def Keeps (w : World α) (maps : Maps α) (tl : Nat → List Nat) (pc pc' : PCache α) : Prop :=
  ∀ m k, Cur w maps pc tl m k → pc' (m, k) = pc (m, k) ∧ Cur w maps pc' tl m k

theorem Keeps.refl {w : World α} {maps : Maps α} {tl : Nat → List Nat} (pc : PCache α) :
    Keeps w maps tl pc pc := fun _ _ h => ⟨rfl, h⟩

theorem Keeps.trans {w : World α} {maps : Maps α} {tl : Nat → List Nat} {a b c : PCache α}
    (h : Keeps w maps tl a b) (h' : Keeps w maps tl b c) : Keeps w maps tl a c :=
  fun m k hc => ⟨((h' m k (h m k hc).2).1).trans (h m k hc).1, (h' m k (h m k hc).2).2⟩

/-- Insertion into the cache: there is no failure and the value is current. -/
theorem insert_ok {w : World α} {maps : Maps α} {pc : PCache α} {tl : Nat → List Nat}
    {L : Store → Nat → Val α} (hi : Inv w maps pc tl L) {s n k : Nat} {c : Cell α}
    (hm : maps (.pattern s n) = some c) (hk : c.kind ≠ .assign)
    {stem : Option (Ref α)}
    (hst : ∀ x, stem = some x → content maps pc x.store = some (x.val, x.ver) ∧
      Right w maps (selFor s k (tl k)) x.vars x.store ∧ x.store ≠ .pattern (.pattern s n) k)
    (hfr : stem.map (fun x => (x.vars, x.val)) = freshStem w maps tl s k)
    (hcu : ∀ x m' k', stem = some x → x.store = .pattern m' k' → Cur w maps pc tl m' k') :
    ∃ ver pc' L', insert pc (.pattern s n, k) (stem.map (·.vars)) (stemVer stem) c.ver
        (Lookup.add c.kind (stem.map (·.val)) c.val) =
        some (Lookup.add c.kind (stem.map (·.val)) c.val, ver, pc') ∧
      Inv w maps pc' tl L' ∧
      content maps pc' (.pattern (.pattern s n) k) =
        some (Lookup.add c.kind (stem.map (·.val)) c.val, ver) ∧
      Keeps w maps tl pc pc' ∧ Cur w maps pc' tl (.pattern s n) k := by
  have hmk : ∀ (pc' : PCache α) (e : Entry α), pc' (.pattern s n, k) = some e →
      e.bver = c.ver → e.svars = stem.map (·.vars) → e.sver = stemVer stem →
      (∀ x, stem = some x → content maps pc' x.store = content maps pc x.store) →
      Keeps w maps tl pc pc' → Cur w maps pc' tl (.pattern s n) k := by
    intro pc' e he hb hs hv hsame hkeep
    cases hst' : stem with
    | none =>
      rw [hst'] at hs hv hfr
      exact .alone he hm hb hfr.symm hs hv
    | some x =>
      rw [hst'] at hs hv hfr
      obtain ⟨hx1, hx2, hx3⟩ := hst x hst'
      refine .added (y := x.val) (x := x.val) (st := x.store) he hm hb hfr.symm hs hx2 ?_ ?_
      · rw [hsame x hst', hx1, hv]; rfl
      · intro m' k' h; exact (hkeep _ _ (hcu x m' k' hst' h)).2
  have hput : ∀ e0 : Entry α, ¬ Cur w maps pc tl (.pattern s n) k →
      Keeps w maps tl pc (pc.put (.pattern s n, k) e0) := by
    intro e0 hn m' k' h
    refine ⟨?_, h.put hn⟩
    simp only [Cache.put]
    rw [if_neg (by intro h2; cases h2; exact hn h)]
  have hmap := hi.led (.map (.pattern s n)) c.val c.ver (by simp [content, hm])
  unfold insert
  cases hp : pc (.pattern s n, k) with
  | none =>
    have hnc : ¬ Cur w maps pc tl (.pattern s n) k := by
      intro h
      cases h with
      | alone he => rw [hp] at he; cases he
      | added he => rw [hp] at he; cases he
    refine ⟨1, _, _, rfl, put_inv hi hm hk (Nat.le_refl 1)
      (by intro e he; rw [hp] at he; cases he) hst, ?_, hput _ hnc, ?_⟩
    · rw [content_put, if_pos rfl]
    · refine hmk _ _ (if_pos rfl) rfl rfl rfl ?_ (hput _ hnc)
      intro x hx; rw [content_put, if_neg (hst x hx).2.2]
  | some e =>
    obtain ⟨s', n', c', h1, hm', hk', hb, hrest⟩ := hi.ent _ _ e hp
    cases h1
    rw [hm] at hm'; cases hm'
    have hev := hi.led (.pattern (.pattern s n) k) e.val e.ver (by simp [content, hp])
    have hsver : e.svars = stem.map (·.vars) → e.sver ≤ stemVer stem := by
      intro he
      cases hs : stem with
      | none =>
        rw [hs] at he
        rw [he] at hrest
        have := hrest.1
        simp only [stemVer]; omega
      | some x =>
        rw [hs] at he
        rw [he] at hrest
        obtain ⟨st, y, n'', hr, hc, hle, hv⟩ := hrest
        obtain ⟨hx1, hx2, _⟩ := hst x hs
        have := hr.unique hx2
        subst this
        rw [hx1] at hc; cases hc
        exact hle
    simp only
    by_cases hhit : e.bver = c.ver ∧ e.svars = stem.map (·.vars) ∧ e.sver = stemVer stem
    · rw [if_pos hhit]
      have hval : e.val = Lookup.add c.kind (stem.map (·.val)) c.val := by
        obtain ⟨hh1, hh2, hh3⟩ := hhit
        cases hs : stem with
        | none =>
          rw [hs] at hh2
          rw [hh2] at hrest
          rw [hrest.2, hh1, hmap.1]; rfl
        | some x =>
          rw [hs] at hh2 hh3
          rw [hh2] at hrest
          obtain ⟨st, y, n'', hr, hc, hle, hv⟩ := hrest
          obtain ⟨hx1, hx2, _⟩ := hst x hs
          have := hr.unique hx2
          subst this
          rw [hv, hh1, hh3, hmap.1, show stemVer (some x) = x.ver from rfl, (hi.led _ _ _ hx1).1]
          rfl
      refine ⟨e.ver, pc, L, by rw [hval], hi, ?_, .refl pc,
        hmk pc e hp hhit.1 hhit.2.1 hhit.2.2 (fun _ _ => rfl) (.refl pc)⟩
      simp [content, hp, hval]
    · rw [if_neg hhit, if_neg (by omega), if_neg (by
        intro h; have := hsver h.1; omega)]
      have hnc : ¬ Cur w maps pc tl (.pattern s n) k := by
        intro h
        apply hhit
        cases h with
        | alone he hc hb hf hs hv =>
          rw [hp] at he; cases he
          rw [hm] at hc; cases hc
          rw [hf] at hfr
          have hsn : stem = none := by cases hs' : stem with
            | none => rfl
            | some x => rw [hs'] at hfr; cases hfr
          rw [hsn]
          exact ⟨hb, hs, hv⟩
        | @added _ _ _ _ _ v x y st he hc hb hf hs hr hv _ =>
          rw [hp] at he; cases he
          rw [hm] at hc; cases hc
          rw [hf] at hfr
          cases hs' : stem with
          | none => rw [hs'] at hfr; cases hfr
          | some z =>
            rw [hs'] at hfr
            simp only [Option.map_some, Option.some.injEq, Prod.mk.injEq] at hfr
            obtain ⟨hz1, hz2, _⟩ := hst z hs'
            obtain ⟨hfr1, _⟩ := hfr
            subst hfr1
            have := hr.unique hz2
            subst this
            rw [hz1] at hv
            simp only [Option.some.injEq, Prod.mk.injEq] at hv
            exact ⟨hb, hs, hv.2.symm⟩
      refine ⟨e.ver + 1, _, _, rfl, put_inv hi hm hk (by omega) ?_ hst, ?_, hput _ hnc, ?_⟩
      · intro e' he'; rw [hp] at he'; cases he'; omega
      · rw [content_put, if_pos rfl]
      · refine hmk _ _ (if_pos rfl) rfl rfl rfl ?_ (hput _ hnc)
        intro x hx; rw [content_put, if_neg (hst x hx).2.2]

/-- The pattern that is found is one of the scope, and set. -/
theorem findPat_some {w : World α} {maps : Maps α} {s k : Nat} {l : List Nat} {m : Vars}
    {c : Cell α} (h : findPat w maps s k l = some (m, c)) :
    ∃ n, m = .pattern s n ∧ w.pm s n k = true ∧ maps m = some c := by
  induction l with
  | nil => cases h
  | cons n l ih =>
    simp only [findPat] at h
    split at h
    · rename_i hp
      split at h
      · rename_i c' hc'
        cases h
        exact ⟨n, rfl, hp, hc'⟩
      · exact ih h
    · exact ih h

/-- If none is found, then none of those that match is set. -/
theorem findPat_none {w : World α} {maps : Maps α} {s k : Nat} {l : List Nat}
    (h : findPat w maps s k l = none) {n : Nat} (hn : n ∈ l) (hm : w.pm s n k = true) :
    maps (.pattern s n) = none := by
  induction l with
  | nil => cases hn
  | cons n' l ih =>
    simp only [findPat] at h
    rcases List.mem_cons.1 hn with rfl | hn
    · rw [if_pos hm] at h
      split at h
      · cases h
      · assumption
    · split at h
      · split at h
        · cases h
        · exact ih h hn
      · exact ih h hn

/-- Patterns that are found are in the list. -/
theorem findPat_mem {w : World α} {maps : Maps α} {s k : Nat} {l : List Nat} {n : Nat}
    {c : Cell α} (h : findPat w maps s k l = some (.pattern s n, c)) : n ∈ l := by
  induction l with
  | nil => cases h
  | cons n' l ih =>
    simp only [findPat] at h
    split at h
    · split at h
      · cases h; exact List.mem_cons_self
      · exact List.mem_cons_of_mem _ (ih h)
    · exact List.mem_cons_of_mem _ (ih h)

/-- The result of a lookup in the scopes `scopes` with the keys `sel`. -/
structure Found (w : World α) (maps : Maps α) (tl : Nat → List Nat) (pc : PCache α) (scopes : List Nat)
    (sel : Nat → List Nat) (r : Option (Ref α)) (f : Option (Vars × Val α)) : Prop where
  val : r.map (fun x => (x.vars, x.val)) = f
  cur : ∀ x, r = some x → content maps pc x.store = some (x.val, x.ver)
  sto : ∀ x, r = some x → Right w maps sel x.vars x.store
  scp : ∀ x s n, r = some x → x.vars = .pattern s n → s ∈ scopes ∧ n ∈ w.pats s
  upd : ∀ x m k, r = some x → x.store = .pattern m k → Cur w maps pc tl m k

theorem Right.congr {w : World α} {maps : Maps α} {sel sel' : Nat → List Nat} {v : Vars}
    {st : Store} (h : Right w maps sel v st)
    (hs : ∀ s n, v = .pattern s n → sel s = sel' s ∨
      (sel' s).find? (w.pm s n) = (sel s).find? (w.pm s n)) :
    Right w maps sel' v st := by
  cases v with
  | target t => exact h
  | plain s => exact h
  | pattern s n =>
    obtain ⟨c, hc, h⟩ := h
    refine ⟨c, hc, ?_⟩
    rcases h with h | ⟨h, k, hk, h'⟩
    · exact .inl h
    · refine .inr ⟨h, k, ?_, h'⟩
      rcases hs s n rfl with e | e
      · rw [← e]; exact hk
      · rw [e]; exact hk

/-- One scope. -/
theorem origIn_ok {w : World α} {maps : Maps α} {tl : Nat → List Nat} {s : Nat}
    {rest : List Nat} (hnot : s ∉ rest)
    {out : List Nat → PCache α → Option (Option (Ref α) × PCache α)}
    {fout : List Nat → Option (Vars × Val α)}
    (hout : ∀ cur pc L, Keyed tl cur → Inv w maps pc tl L →
      ∃ r pc' L', out cur pc = some (r, pc') ∧ Inv w maps pc' tl L' ∧
        Keeps w maps tl pc pc' ∧ Found w maps tl pc' rest (fun _ => cur) r (fout cur))
    (hfout : fout = fun cur => freshChain w maps (w.chain s).tail cur) :
    ∀ (tries cur : List Nat) (pc : PCache α) (L : Store → Nat → Val α),
      Keyed tl tries → Keyed tl cur → Inv w maps pc tl L →
      ∃ r pc' L', origIn w maps s out cur tries pc = some (r, pc') ∧ Inv w maps pc' tl L' ∧
        Keeps w maps tl pc pc' ∧ Found w maps tl pc' (s :: rest) (fun s' => if s' = s then tries else cur) r
          (freshIn w maps s fout cur tries) := by
  intro tries
  induction tries with
  | nil =>
    intro cur pc L _ hcur hi
    simp only [origIn, freshIn]
    cases hp : maps (.plain s) with
    | some c =>
      refine ⟨_, pc, L, rfl, hi, .refl pc, rfl, ?_, ?_, ?_, ?_⟩
      · intro x hx; cases hx; simp [content, hp]
      · intro x hx; cases hx; rfl
      · intro x s' n' hx hv; cases hx; cases hv
      · intro x s' n' hx hv; cases hx; cases hv
    | none =>
      obtain ⟨r, pc', L', h1, h2, hkp, h3⟩ := hout cur pc L hcur hi
      refine ⟨r, pc', L', h1, h2, hkp, h3.val, h3.cur, ?_, ?_, h3.upd⟩
      · intro x hx
        refine (h3.sto x hx).congr ?_
        intro s' n' hv
        have := h3.scp x s' n' hx hv
        refine .inl ?_
        show cur = if s' = s then [] else cur
        rw [if_neg (by rintro rfl; exact hnot this.1)]
      · intro x s' n' hx hv
        exact ⟨List.mem_cons_of_mem _ (h3.scp x s' n' hx hv).1, (h3.scp x s' n' hx hv).2⟩
  | cons k ks ih =>
    intro cur pc L hk hcur hi
    simp only [origIn, freshIn]
    cases hf : findPat w maps s k (w.pats s) with
    | none =>
      obtain ⟨r, pc', L', h1, h2, hkp, h3⟩ := ih cur pc L hk.tail hcur hi
      refine ⟨r, pc', L', h1, h2, hkp, h3.val, h3.cur, ?_, h3.scp, h3.upd⟩
      intro x hx
      cases hv : x.vars with
      | target t => have := h3.sto x hx; rw [hv] at this; exact this
      | plain s' => have := h3.sto x hx; rw [hv] at this; exact this
      | pattern s' n =>
        have hr := h3.sto x hx
        rw [hv] at hr
        obtain ⟨c, hc, hr⟩ := hr
        refine ⟨c, hc, ?_⟩
        rcases hr with hr | ⟨hr, k', hk', hst⟩
        · exact .inl hr
        · refine .inr ⟨hr, k', ?_, hst⟩
          by_cases hs : s' = s
          · subst hs
            simp only [if_true] at hk' ⊢
            rw [List.find?_cons]
            cases hpm : w.pm s' n k with
            | false => exact hk'
            | true =>
              have := findPat_none hf (h3.scp x s' n hx hv).2 hpm
              rw [this] at hc; cases hc
          · simp only [if_neg hs] at hk' ⊢; exact hk'
    | some p =>
      obtain ⟨m, c⟩ := p
      obtain ⟨n, rfl, hpm, hm⟩ := findPat_some hf
      simp only
      by_cases hka : c.kind = .assign
      · rw [if_neg (by simpa using hka), if_neg (by simpa using hka)]
        refine ⟨_, pc, L, rfl, hi, .refl pc, rfl, ?_, ?_, ?_, ?_⟩
        · intro x hx; cases hx; simp [content, hm]
        · intro x hx; cases hx; exact ⟨c, hm, .inl ⟨hka, rfl⟩⟩
        · intro x s' n' hx hv; cases hx; cases hv; exact ⟨List.mem_cons_self, findPat_mem hf⟩
        · intro x m' k' hx hv; cases hx; cases hv
      · rw [if_pos hka, if_pos hka]
        obtain ⟨r, pc1, L1, h1, h2, hkp, h3⟩ := ih (k :: ks) pc L hk.tail hk hi
        rw [h1]
        have hst : ∀ x, r = some x → content maps pc1 x.store = some (x.val, x.ver) ∧
            Right w maps (selFor s k (tl k)) x.vars x.store ∧
            x.store ≠ .pattern (.pattern s n) k := by
          intro x hx
          have hr : Right w maps (selFor s k (tl k)) x.vars x.store := by
            rw [hk.head]; exact h3.sto x hx
          refine ⟨h3.cur x hx, hr, ?_⟩
          intro he
          cases hv : x.vars with
          | target t => rw [hv] at hr; have := hr.symm.trans he; cases this
          | plain t => rw [hv] at hr; have := hr.symm.trans he; cases this
          | pattern s' n' =>
            rw [hv] at hr
            obtain ⟨c', _, hr⟩ := hr
            rcases hr with ⟨_, hr⟩ | ⟨_, k', hk', hr⟩
            · rw [he] at hr; cases hr
            · rw [he] at hr
              injection hr with ha hb
              injection ha with ha hc
              subst ha; subst hb
              rw [selFor, if_pos rfl, hk.head] at hk'
              exact hk.not_mem (List.mem_of_find?_eq_some hk')
        have hfr : r.map (fun x => (x.vars, x.val)) = freshStem w maps tl s k := by
          rw [h3.val, freshStem, hk.head, hfout]
        obtain ⟨ver, pc2, L2, g1, g2, g3, g4, g5⟩ := insert_ok h2 hm hka hst hfr h3.upd
        have hval : (freshIn w maps s fout (k :: ks) ks).map (·.2) = r.map (·.val) := by
          rw [← h3.val]; cases r <;> rfl
        simp only [Option.bind_some]
        rw [g1, hval]
        refine ⟨_, pc2, L2, rfl, g2, hkp.trans g4, rfl, ?_, ?_, ?_, ?_⟩
        · intro x hx; cases hx; exact g3
        · intro x hx; cases hx
          refine ⟨c, hm, .inr ⟨hka, k, ?_, rfl⟩⟩
          simp only [if_true]
          rw [List.find?_cons, hpm]
        · intro x s' n' hx hv; cases hx; cases hv; exact ⟨List.mem_cons_self, findPat_mem hf⟩
        · intro x m' k' hx hv; cases hx; cases hv; exact g5

/-! ## The scopes -/

/-- Every scope of a chain has its own chain as the rest. -/
theorem Tree.suffix {w : World α} (ht : w.Tree) :
    ∀ (n s x : Nat) (r : List Nat), (w.chain s).length ≤ n → (x :: r) <:+ w.chain s →
      w.chain x = x :: r := by
  intro n
  induction n with
  | zero =>
    intro s x r hn h
    have := h.length_le
    simp at this; omega
  | succ n ih =>
    intro s x r hn h
    rcases ht s with e | ⟨p, e⟩
    · rw [e] at h
      have h2 := h.eq_of_length_le (by simp)
      injection h2 with h3 h4
      subst h3; subst h4; exact e
    · rw [e] at h hn
      rcases List.suffix_cons_iff.1 h with h2 | h2
      · injection h2 with h3 h4
        subst h3; subst h4; exact e
      · exact ih p x r (by simp at hn; omega) h2

theorem Tree.head {w : World α} (ht : w.Tree) (s : Nat) : ∃ r, w.chain s = s :: r := by
  rcases ht s with e | ⟨p, e⟩
  · exact ⟨_, e⟩
  · exact ⟨_, e⟩

theorem Tree.suffix' {w : World α} (ht : w.Tree) {s x : Nat} {r : List Nat}
    (h : (x :: r) <:+ w.chain s) : w.chain x = x :: r :=
  Tree.suffix ht _ s x r (Nat.le_refl _) h

/-- A scope is not its own parent. -/
theorem Tree.not_mem {w : World α} (ht : w.Tree) {s x : Nat} {r : List Nat}
    (h : (x :: r) <:+ w.chain s) : x ∉ r := by
  intro hx
  obtain ⟨a, b, rfl⟩ := List.append_of_mem hx
  have h1 := Tree.suffix' ht h
  have h2 := Tree.suffix' ht (s := s) (x := x) (r := b)
    (List.IsSuffix.trans ⟨x :: a, by simp⟩ h)
  rw [h1] at h2
  have := congrArg List.length h2
  simp at this
  omega

/-- All the scopes. -/
theorem origChain_ok {w : World α} (ht : w.Tree) {maps : Maps α} {tl : Nat → List Nat}
    (s0 : Nat) : ∀ (chain cur : List Nat) (pc : PCache α) (L : Store → Nat → Val α),
      chain <:+ w.chain s0 → Keyed tl cur → Inv w maps pc tl L →
      ∃ r pc' L', origChain w maps chain cur pc = some (r, pc') ∧ Inv w maps pc' tl L' ∧
        Keeps w maps tl pc pc' ∧
        Found w maps tl pc' chain (fun _ => cur) r (freshChain w maps chain cur) := by
  intro chain
  induction chain with
  | nil =>
    intro cur pc L _ _ hi
    refine ⟨none, pc, L, rfl, hi, .refl pc, rfl, ?_, ?_, ?_, ?_⟩
    all_goals intros; contradiction
  | cons s rest ih =>
    intro cur pc L hs hk hi
    have hrest : rest <:+ w.chain s0 := (List.suffix_cons s rest).trans hs
    have h := origIn_ok (w := w) (maps := maps) (tl := tl) (s := s) (rest := rest)
      (Tree.not_mem ht hs) (out := fun cur pc => origChain w maps rest cur pc)
      (fout := fun cur => freshChain w maps rest cur)
      (fun cur pc L hk hi => ih cur pc L hrest hk hi)
      (by rw [Tree.suffix' ht hs]; rfl) cur cur pc L hk hk hi
    obtain ⟨r, pc', L', h1, h2, h3, h4⟩ := h
    refine ⟨r, pc', L', h1, h2, h3, h4.val, h4.cur, ?_, h4.scp, h4.upd⟩
    intro x hx
    refine (h4.sto x hx).congr ?_
    intro s' n' _
    refine .inl ?_
    show (if s' = s then cur else cur) = cur
    split <;> rfl

/-- Where a value that is not pattern-specific comes from and what it is. -/
theorem ownOf_some {maps : Maps α} {l : List Nat} {r : Ref α} (h : ownOf maps l = some r) :
    ∃ t c, t ∈ l ∧ maps (.target t) = some c ∧
      r = ⟨.map (.target t), c.val, c.ver, .target t⟩ := by
  induction l with
  | nil => cases h
  | cons t l ih =>
    simp only [ownOf] at h
    split at h
    · rename_i k x ver heq
      cases h
      exact ⟨t, _, List.mem_cons_self, heq, rfl⟩
    · obtain ⟨t', c, h1, h2, h3⟩ := ih h
      exact ⟨t', c, List.mem_cons_of_mem _ h1, h2, h3⟩

/-- The original, without the cache. -/
def freshOriginal (w : World α) (maps : Maps α) (o : Origin) : Option (Vars × Val α) :=
  match ownOf maps o.own with
  | some r => some (r.vars, r.val)
  | none => freshChain w maps (w.chain o.base) o.keys

/-- The original. -/
theorem original_ok {w : World α} (ht : w.Tree) {maps : Maps α} {tl : Nat → List Nat}
    {o : Origin} (hk : Keyed tl o.keys) {pc : PCache α} {L : Store → Nat → Val α}
    (hi : Inv w maps pc tl L) :
    ∃ r pc' L', original w maps o pc = some (r, pc') ∧ Inv w maps pc' tl L' ∧
      Keeps w maps tl pc pc' ∧
      Found w maps tl pc' (w.chain o.base) (fun _ => o.keys) r (freshOriginal w maps o) := by
  unfold original freshOriginal
  cases ho : ownOf maps o.own with
  | some r =>
    obtain ⟨t, c, _, hc, rfl⟩ := ownOf_some ho
    refine ⟨_, pc, L, rfl, hi, .refl pc, rfl, ?_, ?_, ?_, ?_⟩
    · intro x hx; cases hx; simp [content, hc]
    · intro x hx; cases hx; rfl
    · intro x s n hx hv; cases hx; cases hv
    · intro x m k hx hv; cases hx; cases hv
  | none =>
    exact origChain_ok ht o.base (w.chain o.base) o.keys pc L (List.suffix_refl _) hk hi

/-- An assignment that does not change the kind. -/
theorem set_inv {w : World α} {maps : Maps α} {pc : PCache α} {tl : Nat → List Nat}
    {L : Store → Nat → Val α} (hi : Inv w maps pc tl L) {m : Vars} {k : Kind} {v : Val α}
    (hk : ∀ c, maps m = some c → c.kind = k) :
    ∃ L', Inv w (maps.set m k v) pc tl L' := by
  -- The kind and the presence of what is set do not change.
  have hright : ∀ sel v' st, Right w maps sel v' st → Right w (maps.set m k v) sel v' st := by
    intro sel v' st h
    cases v' with
    | target t => exact h
    | plain s => exact h
    | pattern s n =>
      obtain ⟨c, hc, h⟩ := h
      by_cases hm : Vars.pattern s n = m
      · have hkc := hk c (hm ▸ hc)
        refine ⟨_, if_pos hm, ?_⟩
        simp only
        rw [← hkc]; exact h
      · exact ⟨c, by simp only [Maps.set, if_neg hm]; exact hc, h⟩
  let ver := match maps m with | some c => c.ver + 1 | none => 1
  have hset : (maps.set m k v) m = some ⟨k, v, ver⟩ := by simp only [Maps.set, if_true]; rfl
  have hother : ∀ m', m' ≠ m → (maps.set m k v) m' = maps m' := by
    intro m' h; simp only [Maps.set, if_neg h]
  have hold : ∀ c, maps m = some c → ver = c.ver + 1 := by
    intro c hc; show (match maps m with | some c => c.ver + 1 | none => 1) = _; rw [hc]
  have hpos : 1 ≤ ver := by
    cases hm : maps m with
    | some c => have := hold c hm; omega
    | none => show 1 ≤ (match maps m with | some c => c.ver + 1 | none => 1); rw [hm]; exact Nat.le_refl 1
  -- What is in an object may only become newer.
  have hcont : ∀ st y n, content maps pc st = some (y, n) →
      ∃ y' n', content (maps.set m k v) pc st = some (y', n') ∧ n ≤ n' := by
    intro st y n h
    cases st with
    | pattern m' k' => exact ⟨y, n, h, Nat.le_refl _⟩
    | override m' => cases h
    | map m' =>
      by_cases hm : m' = m
      · subst hm
        simp only [content, Option.map_eq_some_iff] at h
        obtain ⟨c, hc, h⟩ := h
        injection h with h1 h2
        have := hold c hc
        exact ⟨v, ver, by simp [content, hset], by omega⟩
      · refine ⟨y, n, ?_, Nat.le_refl _⟩
        simp only [content, hother m' hm]; exact h
  have hfresh : ∀ n', n' ≠ ver → ∀ st, note L (.map m) ver v st n' = L st n' :=
    fun n' h st => note_ver h
  refine ⟨note L (.map m) ver v, ?_, ?_⟩
  · intro st x n h
    cases st with
    | override m' => cases h
    | pattern m' k' =>
      rw [note_store (by simp)]; exact hi.led _ x n h
    | map m' =>
      by_cases hm : m' = m
      · subst hm
        simp only [content, hset, Option.map_some, Option.some.injEq, Prod.mk.injEq] at h
        obtain ⟨rfl, rfl⟩ := h
        exact ⟨note_same, hpos⟩
      · rw [note_store (by simpa using hm)]
        refine hi.led _ x n ?_
        simp only [content, hother m' hm] at h; exact h
  · intro m' k' e he
    obtain ⟨s, n, c, rfl, hc, hka, hb, hrest⟩ := hi.ent m' k' e he
    have hbase : ∃ c', (maps.set m k v) (.pattern s n) = some c' ∧ c'.kind = c.kind ∧
        e.bver ≤ c'.ver ∧
        note L (.map m) ver v (.map (.pattern s n)) e.bver = L (.map (.pattern s n)) e.bver := by
      by_cases hm : Vars.pattern s n = m
      · have := hold c (hm ▸ hc)
        exact ⟨⟨k, v, ver⟩, by rw [hm]; exact hset, (hk c (hm ▸ hc)).symm,
          by show e.bver ≤ ver; omega, note_ver (by omega)⟩
      · exact ⟨c, by rw [hother _ hm]; exact hc, rfl, hb, note_store (by simpa using hm)⟩
    obtain ⟨c', hc', hkc, hb', hl⟩ := hbase
    refine ⟨s, n, c', rfl, hc', by rw [hkc]; exact hka, hb', ?_⟩
    rw [hl, hkc]
    cases hs : e.svars with
    | none => rw [hs] at hrest; exact hrest
    | some v' =>
      rw [hs] at hrest
      obtain ⟨st, y, n', hr, hct, hle, hv⟩ := hrest
      obtain ⟨y', n'', hct', hle'⟩ := hcont st y n' hct
      refine ⟨st, y', n'', hright _ _ _ hr, hct', by omega, ?_⟩
      have : note L (.map m) ver v st e.sver = L st e.sver := by
        by_cases hm : st = .map m
        · subst hm
          simp only [content, Option.map_eq_some_iff] at hct
          obtain ⟨c0, hc0, hct⟩ := hct
          injection hct with h1 h2
          have := hold c0 hc0
          exact note_ver (by omega)
        · exact note_store hm
      rw [this]; exact hv

end Verif.VarCache
