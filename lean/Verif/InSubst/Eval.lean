import Verif.InSubst.Lemmas

/-!
# Substitutions in `.in` files: lines and files
-/

namespace Verif.InSubst

variable {hash : Str → Str} {e : Env}

/-- Substitution and saving of a name that is to be substituted. -/
def save (hash : Str → Str) (e : Env) (k : Nat) (n : Str) (st : St) : St × Except Err Str :=
  match lookup e n with
  | .error x => (st, .error x)
  | .ok v =>
    (if st.skip = 0 then { st with dd := st.dd.write (entry hash k n v) } else { st with skip := st.skip - 1 }, .ok v)

/-- The pieces of a line one after another. -/
def segs (hash : Str → Str) (e : Env) (k : Nat) (nl : Eol) (ok : Bool) : List Seg → St → St × Except Err Str
  | [], st => (st, if ok then .ok [] else .error .unterminated)
  | .lit c :: gs, st => ((segs hash e k nl ok gs st).1, (segs hash e k nl ok gs st).2.map (c :: ·))
  | .sub n :: gs, st =>
    match save hash e k n st with
    | (st, .error x) => (st, .error x)
    | (st, .ok v) => ((segs hash e k nl ok gs st).1, (segs hash e k nl ok gs st).2.map (newlines nl v ++ ·))

theorem map_map {α β γ : Type} (f : β → γ) (g : α → β) (x : Except Err α) : (x.map g).map f = x.map (f ∘ g) := by
  cases x <;> rfl

theorem segs_lits (k : Nat) (nl : Eol) (ok : Bool) (u : Str) (gs : List Seg) (st : St) :
    segs hash e k nl ok (u.map .lit ++ gs) st =
      ((segs hash e k nl ok gs st).1, (segs hash e k nl ok gs st).2.map (u ++ ·)) := by
  induction u with
  | nil =>
    show _ = ((segs hash e k nl ok gs st).1, (segs hash e k nl ok gs st).2.map fun x => x)
    cases h : segs hash e k nl ok gs st with
    | mk a b => cases b <;> simp [h, Except.map]
  | cons c u ih =>
    rw [List.map_cons, List.cons_append]
    show ((segs hash e k nl ok (u.map .lit ++ gs) st).1, _) = _
    rw [ih]
    dsimp only
    rw [map_map]
    rfl

/-- The result with what is in front of it. -/
def front (a : Str) (x : St × Except Err Str) : St × Except Err Str := (x.1, x.2.map (a ++ ·))

theorem front_front (a b : Str) (x : St × Except Err Str) : front a (front b x) = front (a ++ b) x := by
  unfold front
  dsimp only
  rw [map_map]
  congr 2
  funext y
  simp

theorem segs_lit (k : Nat) (nl : Eol) (ok : Bool) (c : Char) (gs : List Seg) (st : St) :
    segs hash e k nl ok (.lit c :: gs) st = front [c] (segs hash e k nl ok gs st) := rfl

theorem segs_lits' (k : Nat) (nl : Eol) (ok : Bool) (u : Str) (gs : List Seg) (st : St) :
    segs hash e k nl ok (u.map .lit ++ gs) st = front u (segs hash e k nl ok gs st) := segs_lits k nl ok u gs st

theorem process_strict (k : Nat) (nl : Eol) {sym : Char} {r : Str} {gs : List Seg} {ok : Bool}
    (h : Strict sym r gs ok) (hs : sym = e.sym) (hst : e.strict = true) : ∀ (f : Nat) (a : Str) (st : St),
    r.length < f → process hash e k nl.str f a.length (a ++ r) st = front a (segs hash e k nl ok gs st) := by
  induction h with
  | nil =>
    intro f a st hf
    cases f with
    | zero => cases hf
    | succ f =>
      unfold process
      rw [if_pos (by simp)]
      simp [segs, front, Except.map]
  | @char c s gs ok hc _ ih =>
    intro f a st hf
    cases f with
    | zero => cases hf
    | succ f =>
      unfold process
      rw [if_neg (by simp), if_pos]
      · have := ih f (a ++ [c]) st (by simp at hf; omega)
        rw [List.length_append, List.length_singleton] at this
        rw [show a ++ c :: s = a ++ [c] ++ s by simp, this, segs_lit, front_front]
      · rw [getElem_mid]
        intro e'
        exact hc (by injection e' with e'; rw [e', hs])
  | @escape s gs ok hh _ ih =>
    intro f a st hf
    cases f with
    | zero => cases hf
    | succ f =>
      unfold process
      rw [if_neg (by simp), if_neg (by rw [getElem_mid, hs]; simp)]
      have h1 := find_strict_end (sym := sym) [] ((a ++ sym :: sym :: s).length + 1) (a ++ [sym]) s hh (by simp)
      rw [show (a ++ [sym]).length = a.length + 1 by simp] at h1
      rw [show a ++ [sym] ++ (escape sym [] ++ sym :: s) = a ++ sym :: sym :: s by simp [escape]] at h1
      rw [hst, ← hs, h1]
      dsimp only
      rw [if_pos (by simp), if_pos rfl]
      rw [show a ++ [sym] ++ ([] ++ sym :: s) = a ++ sym :: (sym :: s) by simp, erase_mid]
      have := ih f (a ++ [sym]) st (by simp at hf; omega)
      rw [List.length_append, List.length_singleton] at this
      rw [show a ++ sym :: s = a ++ [sym] ++ s by simp, this, segs_lit, front_front]
  | @sub n s gs ok hn hh _ ih =>
    intro f a st hf
    cases f with
    | zero => cases hf
    | succ f =>
      unfold process
      rw [if_neg (by simp), if_neg (by rw [getElem_mid, hs]; simp)]
      have hle : n.length ≤ (escape sym n).length := by
        clear hn hf
        induction n with
        | nil => simp
        | cons c n ih => rw [escape_cons]; split <;> simp <;> omega
      have h1 := find_strict_end (sym := sym) n ((a ++ sym :: (escape sym n ++ sym :: s)).length + 1) (a ++ [sym]) s hh
        (by simp; omega)
      rw [show (a ++ [sym]).length = a.length + 1 by simp] at h1
      rw [show a ++ [sym] ++ (escape sym n ++ sym :: s) = a ++ sym :: (escape sym n ++ sym :: s) by simp] at h1
      rw [hst, ← hs, h1]
      dsimp only
      have hnl : 0 < n.length := List.length_pos_iff.2 hn
      rw [if_neg (by omega)]
      have e1 : List.take (a.length + 1 + n.length - a.length - 1)
          (List.drop (a.length + 1) (a ++ [sym] ++ (n ++ sym :: s))) = n := by
        rw [show a.length + 1 = (a ++ [sym]).length by simp, List.drop_left,
          show (a ++ [sym]).length + n.length - a.length - 1 = n.length by simp; omega, List.take_left]
      rw [e1]
      have e2 : substituteSave hash e k n st = ((save hash e k n st).1, (save hash e k n st).2.map some) := by
        unfold substituteSave substitute save
        rw [hst]
        cases lookup e n <;> rfl
      rw [e2]
      unfold segs
      cases hx : save hash e k n st with
      | mk st' y =>
        cases y with
        | error x => rfl
        | ok v =>
          dsimp only [Except.map]
          rw [replace_newlines]
          have e3 : List.take a.length (a ++ [sym] ++ (n ++ sym :: s)) = a := by
            rw [List.append_assoc, List.take_left]
          have e4 : List.drop (a.length + 1 + n.length + 1) (a ++ [sym] ++ (n ++ sym :: s)) = s := by
            rw [show a ++ [sym] ++ (n ++ sym :: s) = (a ++ [sym] ++ n ++ [sym]) ++ s by simp,
              show a.length + 1 + n.length + 1 = (a ++ [sym] ++ n ++ [sym]).length by simp; omega, List.drop_left]
          rw [e3, e4]
          have := ih f (a ++ newlines nl v) st' (by simp at hf; omega)
          rw [List.length_append] at this
          rw [this, ← front_front]
          rfl
  | @unterminated n =>
    intro f a st hf
    cases f with
    | zero => cases hf
    | succ f =>
      unfold process
      rw [if_neg (by simp), if_neg (by rw [getElem_mid, hs]; simp)]
      have hle : n.length ≤ (escape sym n).length := by
        clear hf
        induction n with
        | nil => simp
        | cons c n ih => rw [escape_cons]; split <;> simp <;> omega
      have h1 := find_strict_none (sym := sym) n ((a ++ sym :: escape sym n).length + 1) (a ++ [sym]) (by simp; omega)
      rw [show (a ++ [sym]).length = a.length + 1 by simp] at h1
      rw [show a ++ [sym] ++ escape sym n = a ++ sym :: escape sym n by simp] at h1
      rw [hst, ← hs, h1]
      rfl

theorem process_lax (k : Nat) (nl : Eol) {sym : Char} {r : Str} {gs : List Seg}
    (h : Lax sym r gs) (hs : sym = e.sym) (hst : e.strict = false) : ∀ (f : Nat) (a : Str) (st : St),
    r.length < f → process hash e k nl.str f a.length (a ++ r) st = front a (segs hash e k nl true gs st) := by
  induction h with
  | nil =>
    intro f a st hf
    cases f with
    | zero => cases hf
    | succ f =>
      unfold process
      rw [if_pos (by simp)]
      simp [segs, front, Except.map]
  | @char c s gs hc _ ih =>
    intro f a st hf
    cases f with
    | zero => cases hf
    | succ f =>
      unfold process
      rw [if_neg (by simp), if_pos]
      · have := ih f (a ++ [c]) st (by simp at hf; omega)
        rw [List.length_append, List.length_singleton] at this
        rw [show a ++ c :: s = a ++ [c] ++ s by simp, this, segs_lit, front_front]
      · rw [getElem_mid]
        intro e'
        exact hc (by injection e' with e'; rw [e', hs])
  | @double s gs _ ih =>
    intro f a st hf
    cases f with
    | zero => cases hf
    | succ f =>
      unfold process
      rw [if_neg (by simp), if_neg (by rw [getElem_mid, hs]; simp)]
      have h1 := find_lax_end (sym := sym) [] ((a ++ sym :: sym :: s).length + 1) (a ++ [sym]) s (by simp) (by simp)
      rw [show (a ++ [sym]).length = a.length + 1 by simp] at h1
      rw [show a ++ [sym] ++ ([] ++ sym :: s) = a ++ sym :: sym :: s by simp] at h1
      rw [hst, ← hs, h1]
      dsimp only
      rw [if_pos (by simp), if_neg (by simp)]
      have := ih f (a ++ [sym]) st (by simp at hf ⊢; omega)
      rw [List.length_append, List.length_singleton] at this
      rw [show a ++ sym :: sym :: s = a ++ [sym] ++ sym :: s by simp, this, segs_lit, front_front]
  | @sub n s gs hn hh hv _ ih =>
    intro f a st hf
    cases f with
    | zero => cases hf
    | succ f =>
      unfold process
      rw [if_neg (by simp), if_neg (by rw [getElem_mid, hs]; simp)]
      have h1 := find_lax_end (sym := sym) n ((a ++ sym :: (n ++ sym :: s)).length + 1) (a ++ [sym]) s hh
        (by simp; omega)
      rw [show (a ++ [sym]).length = a.length + 1 by simp] at h1
      rw [show a ++ [sym] ++ (n ++ sym :: s) = a ++ sym :: (n ++ sym :: s) by simp] at h1
      rw [hst, ← hs, h1]
      dsimp only
      have hnl : 0 < n.length := List.length_pos_iff.2 hn
      rw [if_neg (by omega)]
      have e1 : List.take (a.length + 1 + n.length - a.length - 1)
          (List.drop (a.length + 1) (a ++ sym :: (n ++ sym :: s))) = n := by
        rw [show a ++ sym :: (n ++ sym :: s) = a ++ [sym] ++ (n ++ sym :: s) by simp,
          show a.length + 1 = (a ++ [sym]).length by simp, List.drop_left,
          show (a ++ [sym]).length + n.length - a.length - 1 = n.length by simp; omega, List.take_left]
      rw [e1]
      have e2 : substituteSave hash e k n st = ((save hash e k n st).1, (save hash e k n st).2.map some) := by
        unfold substituteSave substitute save
        rw [hst, scan_isVar.2 hv]
        cases lookup e n <;> rfl
      rw [e2]
      unfold segs
      cases hx : save hash e k n st with
      | mk st' y =>
        cases y with
        | error x => rfl
        | ok v =>
          dsimp only [Except.map]
          rw [replace_newlines]
          have e3 : List.take a.length (a ++ sym :: (n ++ sym :: s)) = a := List.take_left
          have e4 : List.drop (a.length + 1 + n.length + 1) (a ++ sym :: (n ++ sym :: s)) = s := by
            rw [show a ++ sym :: (n ++ sym :: s) = (a ++ [sym] ++ n ++ [sym]) ++ s by simp,
              show a.length + 1 + n.length + 1 = (a ++ [sym] ++ n ++ [sym]).length by simp; omega, List.drop_left]
          rw [e3, e4]
          have := ih f (a ++ newlines nl v) st' (by simp at hf; omega)
          rw [List.length_append] at this
          rw [this, ← front_front]
          rfl
  | @other n s gs hn hh hv _ ih =>
    intro f a st hf
    cases f with
    | zero => cases hf
    | succ f =>
      unfold process
      rw [if_neg (by simp), if_neg (by rw [getElem_mid, hs]; simp)]
      have h1 := find_lax_end (sym := sym) n ((a ++ sym :: (n ++ sym :: s)).length + 1) (a ++ [sym]) s hh
        (by simp; omega)
      rw [show (a ++ [sym]).length = a.length + 1 by simp] at h1
      rw [show a ++ [sym] ++ (n ++ sym :: s) = a ++ sym :: (n ++ sym :: s) by simp] at h1
      rw [hst, ← hs, h1]
      dsimp only
      have hnl : 0 < n.length := List.length_pos_iff.2 hn
      rw [if_neg (by omega)]
      have e1 : List.take (a.length + 1 + n.length - a.length - 1)
          (List.drop (a.length + 1) (a ++ sym :: (n ++ sym :: s))) = n := by
        rw [show a ++ sym :: (n ++ sym :: s) = a ++ [sym] ++ (n ++ sym :: s) by simp,
          show a.length + 1 = (a ++ [sym]).length by simp, List.drop_left,
          show (a ++ [sym]).length + n.length - a.length - 1 = n.length by simp; omega, List.take_left]
      rw [e1]
      have hv' : scan true n = false := by
        cases h : scan true n with
        | false => rfl
        | true => exact absurd (scan_isVar.1 h) hv
      have e2 : substituteSave hash e k n st = (st, .ok none) := by
        unfold substituteSave substitute
        rw [hst, hv']
        rfl
      rw [e2]
      dsimp only
      have := ih f (a ++ sym :: (n ++ [sym])) st (by simp at hf; omega)
      rw [show (a ++ sym :: (n ++ [sym])).length = a.length + (a.length + 1 + n.length - a.length + 1) by simp; omega] at this
      rw [show a ++ sym :: (n ++ sym :: s) = a ++ sym :: (n ++ [sym]) ++ s by simp, this, segs_lits', front_front]
  | @unterminated s hh =>
    intro f a st hf
    cases f with
    | zero => cases hf
    | succ f =>
      unfold process
      rw [if_neg (by simp), if_neg (by rw [getElem_mid, hs]; simp)]
      have h1 := find_lax_none (sym := sym) s ((a ++ sym :: s).length + 1) (a ++ [sym]) hh (by simp; omega)
      rw [show (a ++ [sym]).length = a.length + 1 by simp] at h1
      rw [show a ++ [sym] ++ s = a ++ sym :: s by simp] at h1
      rw [hst, ← hs, h1]
      have := segs_lits' (hash := hash) (e := e) k nl true (sym :: s) [] st
      rw [List.append_nil] at this
      rw [this, front_front]
      simp [front, segs, Except.map]

/-- A line. -/
theorem process_segs (k : Nat) (nl : Eol) {s : Str} {gs : List Seg} {ok : Bool}
    (h : Reads e.strict e.sym s gs ok) (st : St) :
    process hash e k nl.str (s.length + 1) 0 s st = segs hash e k nl ok gs st := by
  have hfront : ∀ x : St × Except Err Str, front [] x = x := by
    intro x
    obtain ⟨a, b⟩ := x
    cases b <;> rfl
  unfold Reads at h
  cases hst : e.strict with
  | true =>
    rw [hst, if_pos rfl] at h
    have := process_strict (hash := hash) k nl h rfl hst (s.length + 1) [] st (Nat.lt_succ_self _)
    rw [hfront] at this
    exact this
  | false =>
    rw [hst, if_neg (by simp)] at h
    obtain ⟨h, rfl⟩ := h
    have := process_lax (hash := hash) k nl h rfl hst (s.length + 1) [] st (Nat.lt_succ_self _)
    rw [hfront] at this
    exact this

/-! ## Every line has its pieces -/

theorem strict_total (sym : Char) (m : Nat) : ∀ s : Str, s.length < m → ∃ gs ok, Strict sym s gs ok := by
  induction m with
  | zero => intro s h; exact absurd h (Nat.not_lt_zero _)
  | succ m ih =>
    intro s h
    cases s with
    | nil => exact ⟨[], true, .nil⟩
    | cons c r =>
      by_cases hc : c = sym
      · subst hc
        rcases strict_split c (r.length + 1) r (Nat.lt_succ_self _) with ⟨n, s, rfl, hs⟩ | ⟨n, rfl⟩
        · obtain ⟨gs, ok, hg⟩ := ih s (by simp at h; omega)
          cases n with
          | nil => exact ⟨_, ok, .escape hs hg⟩
          | cons d n => exact ⟨_, ok, .sub (List.cons_ne_nil _ _) hs hg⟩
        · exact ⟨[], false, .unterminated⟩
      · obtain ⟨gs, ok, hg⟩ := ih r (by simp at h; omega)
        exact ⟨_, ok, .char hc hg⟩

theorem lax_total (sym : Char) (m : Nat) : ∀ s : Str, s.length < m → ∃ gs, Lax sym s gs := by
  induction m with
  | zero => intro s h; exact absurd h (Nat.not_lt_zero _)
  | succ m ih =>
    intro s h
    cases s with
    | nil => exact ⟨[], .nil⟩
    | cons c r =>
      by_cases hc : c = sym
      · subst hc
        by_cases hr : c ∈ r
        · obtain ⟨n, s, rfl, hn⟩ := List.eq_append_cons_of_mem hr
          cases n with
          | nil =>
            obtain ⟨gs, hg⟩ := ih (c :: s) (by simp at h ⊢; omega)
            exact ⟨_, .double hg⟩
          | cons d n =>
            obtain ⟨gs, hg⟩ := ih s (by simp at h; omega)
            by_cases hv : IsVar (d :: n)
            · exact ⟨_, .sub (List.cons_ne_nil _ _) hn hv hg⟩
            · exact ⟨_, .other (List.cons_ne_nil _ _) hn hv hg⟩
        · exact ⟨_, .unterminated hr⟩
      · obtain ⟨gs, hg⟩ := ih r (by simp at h; omega)
        exact ⟨_, .char hc hg⟩

theorem reads_total (strict : Bool) (sym : Char) (s : Str) : ∃ gs ok, Reads strict sym s gs ok := by
  unfold Reads
  cases strict with
  | true =>
    obtain ⟨gs, ok, h⟩ := strict_total sym (s.length + 1) s (Nat.lt_succ_self _)
    exact ⟨gs, ok, by rw [if_pos rfl]; exact h⟩
  | false =>
    obtain ⟨gs, h⟩ := lax_total sym (s.length + 1) s (Nat.lt_succ_self _)
    exact ⟨gs, true, by rw [if_neg (by simp)]; exact ⟨h, rfl⟩⟩

theorem doc_total (strict : Bool) (sym : Char) (ls : List Line) : ∃ d ok, Doc strict sym ls d ok := by
  induction ls with
  | nil => exact ⟨[], true, .nil⟩
  | cons l ls ih =>
    obtain ⟨gs, ok, h⟩ := reads_total strict sym l.text
    cases ok with
    | false => exact ⟨_, false, .bad h⟩
    | true =>
      obtain ⟨d, ok, hd⟩ := ih
      exact ⟨_, ok, .line h hd⟩

end Verif.InSubst
