import Verif.ScriptFlow.Parse

/-!
# Script flow control: the pre-parser accepts the grammar
-/

namespace Verif.ScriptFlow

variable {A : Type}

/-- No `elif` or `else` is next. -/
def NotElse (r : List (Src A)) : Prop := ∀ l r', r = .line l :: r' → l.isElse = false

theorem app_nil : ∀ (p : Prog A), p.app .nil = p
  | .nil => rfl
  | .var a r => by rw [Prog.app, app_nil r]
  | .cmd a r => by rw [Prog.app, app_nil r]
  | .ifc k neg a t e r => by rw [Prog.app, app_nil r]
  | .whl a b r => by rw [Prog.app, app_nil r]
  | .forS a b r => by rw [Prog.app, app_nil r]
  | .forA a b r => by rw [Prog.app, app_nil r]
  | .cont r => by rw [Prog.app, app_nil r]
  | .brk r => by rw [Prog.app, app_nil r]

theorem lines_app : ∀ (p q : Prog A), (p.app q).lines = p.lines ++ q.lines
  | .nil, q => rfl
  | .var a r, q => by simp [Prog.app, Prog.lines, lines_app r]
  | .cmd a r, q => by simp [Prog.app, Prog.lines, lines_app r]
  | .ifc k neg a t e r, q => by simp [Prog.app, Prog.lines, lines_app r]
  | .whl a b r, q => by simp [Prog.app, Prog.lines, lines_app r]
  | .forS a b r, q => by simp [Prog.app, Prog.lines, lines_app r]
  | .forA a b r, q => by simp [Prog.app, Prog.lines, lines_app r]
  | .cont r, q => by simp [Prog.app, Prog.lines, lines_app r]
  | .brk r, q => by simp [Prog.app, Prog.lines, lines_app r]

theorem scoped_app : ∀ (p q : Prog A) (i : Bool), (p.app q).scoped i ↔ p.scoped i ∧ q.scoped i
  | .nil, q, i => by simp [Prog.app, Prog.scoped]
  | .var a r, q, i => by simp [Prog.app, Prog.scoped, scoped_app r]
  | .cmd a r, q, i => by simp [Prog.app, Prog.scoped, scoped_app r]
  | .ifc k neg a t e r, q, i => by simp [Prog.app, Prog.scoped, scoped_app r, and_assoc]
  | .whl a b r, q, i => by simp [Prog.app, Prog.scoped, scoped_app r, and_assoc]
  | .forS a b r, q, i => by simp [Prog.app, Prog.scoped, scoped_app r, and_assoc]
  | .forA a b r, q, i => by simp [Prog.app, Prog.scoped, scoped_app r, and_assoc]
  | .cont r, q, i => by simp [Prog.app, Prog.scoped, scoped_app r, and_assoc]
  | .brk r, q, i => by simp [Prog.app, Prog.scoped, scoped_app r, and_assoc]

/-- Inside of a loop. -/
def inLoop (lv : Nat) : Bool := lv != 0

theorem inLoop_succ (lv : Nat) : inLoop (lv + 1) = true := rfl

/-! ## What is accepted is written so -/

/-- The statement for a line. -/
def SL (f : Nat) : Prop := ∀ (lv : Nat) (l : Line A) (r : List (Src A)) (ls : List (Line A))
  (r' : List (Src A)), parseLine f lv l r = some (ls, r') →
  ∃ p o s, Written (.stmt p) o s ∧ .line l :: r = s ++ r' ∧ ls = p.lines ∧
    p.scoped (inLoop lv) ∧ (o = true → NotElse r')

/-- The statement for a block or a line. -/
def SB (f : Nat) : Prop := ∀ (lv : Nat) (r : List (Src A)) (ls : List (Line A))
  (r' : List (Src A)), parseBlk f lv r = some (ls, r') →
  ∃ p o s, Written (.blk p) o s ∧ r = s ++ r' ∧ ls = p.lines ∧
    p.scoped (inLoop lv) ∧ (o = true → NotElse r')

/-- The statement for the lines of a block. -/
def SK (f : Nat) : Prop := ∀ (lv : Nat) (r : List (Src A)) (ls : List (Line A))
  (r' : List (Src A)), parseBlock f lv r = some (ls, r') →
  ∃ p o s, Written (.seq p) o s ∧ r = s ++ .rb :: r' ∧ ls = p.lines ∧ p.scoped (inLoop lv)

/-- The statement for the blocks of an if-else construct. -/
def SC (f : Nat) : Prop := ∀ (lv : Nat) (els : Bool) (r : List (Src A)) (ls : List (Line A))
  (r' : List (Src A)), parseChain f lv els r = some (ls, r') →
  ∃ t e o s, Written (.chain t e) o s ∧ r = s ++ r' ∧ ls = t.lines ++ (e.lines ++ [.fin]) ∧
    t.scoped (inLoop lv) ∧ e.scoped (inLoop lv) ∧ NotElse r' ∧ (els = true → e = .none)

theorem sl_step {f : Nat} (hB : SB (A := A) f) (hC : SC (A := A) f) : SL (A := A) (f + 1) := by
  intro lv l r ls r' h
  have loop : ∀ (mk : Prog A → Prog A) (l : Line A), (∀ b, (mk b).lines = l :: (b.lines ++ [.fin])) →
      (∀ b i, b.scoped true → (mk b).scoped i) →
      (∀ b o s, Written (.blk b) o s → Written (.stmt (mk b)) o (.line l :: s)) →
      (parseBlk f (lv + 1) r).map (fun x => (l :: (x.1 ++ [.fin]), x.2)) = some (ls, r') →
      ∃ p o s, Written (.stmt p) o s ∧ .line l :: r = s ++ r' ∧ ls = p.lines ∧
        p.scoped (inLoop lv) ∧ (o = true → NotElse r') := by
    intro mk l h1 h2 h3 h
    simp only [Option.map_eq_some_iff] at h
    obtain ⟨⟨ls1, r1⟩, hp, hx⟩ := h
    simp only [Prod.mk.injEq] at hx
    obtain ⟨rfl, rfl⟩ := hx
    obtain ⟨b, o, s, hw, rfl, rfl, hs, hn⟩ := hB (lv + 1) r ls1 r1 hp
    exact ⟨mk b, o, _, h3 b o s hw, rfl, (h1 b).symm, h2 b _ hs, hn⟩
  cases l with
  | var a =>
    simp only [parseLine, Option.some.injEq, Prod.mk.injEq] at h
    obtain ⟨rfl, rfl⟩ := h
    exact ⟨_, _, _, .var a, rfl, rfl, trivial, fun h => by cases h⟩
  | cmd a =>
    simp only [parseLine, Option.some.injEq, Prod.mk.injEq] at h
    obtain ⟨rfl, rfl⟩ := h
    exact ⟨_, _, _, .cmd a, rfl, rfl, trivial, fun h => by cases h⟩
  | cont =>
    simp only [parseLine] at h
    split at h
    · cases h
    · next hl =>
      simp only [Option.some.injEq, Prod.mk.injEq] at h
      obtain ⟨rfl, rfl⟩ := h
      exact ⟨_, _, _, .cont, rfl, rfl, ⟨by simp [inLoop, hl], trivial⟩, fun h => by cases h⟩
  | brk =>
    simp only [parseLine] at h
    split at h
    · cases h
    · next hl =>
      simp only [Option.some.injEq, Prod.mk.injEq] at h
      obtain ⟨rfl, rfl⟩ := h
      exact ⟨_, _, _, .brk, rfl, rfl, ⟨by simp [inLoop, hl], trivial⟩, fun h => by cases h⟩
  | ifc k neg a =>
    simp only [parseLine, Option.map_eq_some_iff] at h
    obtain ⟨⟨ls1, r1⟩, hp, hx⟩ := h
    simp only [Prod.mk.injEq] at hx
    obtain ⟨rfl, rfl⟩ := hx
    obtain ⟨t, e, o, s, hw, rfl, rfl, ht, he, hn, _⟩ := hC lv false r ls1 r1 hp
    exact ⟨.ifc k neg a t e .nil, true, _, .ifc hw, rfl, rfl, ⟨ht, he, trivial⟩, fun _ => hn⟩
  | whl a =>
    simp only [parseLine] at h
    exact loop (fun b => .whl a b .nil) _ (fun _ => rfl) (fun _ _ h => ⟨h, trivial⟩)
      (fun _ _ _ h => .whl h) h
  | forS a =>
    simp only [parseLine] at h
    exact loop (fun b => .forS a b .nil) _ (fun _ => rfl) (fun _ _ h => ⟨h, trivial⟩)
      (fun _ _ _ h => .forS h) h
  | forA a =>
    simp only [parseLine] at h
    exact loop (fun b => .forA a b .nil) _ (fun _ => rfl) (fun _ _ h => ⟨h, trivial⟩)
      (fun _ _ _ h => .forA h) h
  | elifc k neg a => simp [parseLine] at h
  | els => simp [parseLine] at h
  | fin => simp [parseLine] at h

theorem sblk_step {f : Nat} (hL : SL (A := A) f) (hK : SK (A := A) f) : SB (A := A) (f + 1) := by
  intro lv r ls r' h
  cases r with
  | nil => simp [parseBlk] at h
  | cons c r =>
    cases c with
    | line l =>
      simp only [parseBlk] at h
      obtain ⟨p, o, s, hw, hr, hl, hs, hn⟩ := hL lv l r ls r' h
      exact ⟨p, o, s, .single hw, hr, hl, hs, hn⟩
    | lb =>
      simp only [parseBlk] at h
      obtain ⟨p, o, s, hw, rfl, hl, hs⟩ := hK lv r ls r' h
      exact ⟨p, false, _, .braces hw, by simp, hl, hs, fun h => by cases h⟩
    | rb => simp [parseBlk] at h

theorem sk_step {f : Nat} (hL : SL (A := A) f) (hK : SK (A := A) f) : SK (A := A) (f + 1) := by
  intro lv r ls r' h
  cases r with
  | nil => simp [parseBlock] at h
  | cons c r =>
    cases c with
    | line l =>
      simp only [parseBlock] at h
      cases hp : parseLine f lv l r with
      | none => rw [hp] at h; cases h
      | some x =>
        obtain ⟨ls1, r1⟩ := x
        rw [hp] at h
        simp only [Option.map_eq_some_iff] at h
        obtain ⟨⟨ls2, r2⟩, hq, hx⟩ := h
        simp only [Prod.mk.injEq] at hx
        obtain ⟨rfl, rfl⟩ := hx
        obtain ⟨p, o, s, hw, hr, rfl, hs, _⟩ := hL lv l r ls1 r1 hp
        obtain ⟨q, o', s', hw', rfl, rfl, hs'⟩ := hK lv r1 ls2 r2 hq
        exact ⟨p.app q, false, s ++ s', .cons hw hw', by rw [hr]; simp, (lines_app p q).symm,
          (scoped_app p q _).mpr ⟨hs, hs'⟩⟩
    | lb => simp [parseBlock] at h
    | rb =>
      simp only [parseBlock, Option.some.injEq, Prod.mk.injEq] at h
      obtain ⟨rfl, rfl⟩ := h
      exact ⟨.nil, false, [], .nil, rfl, rfl, trivial⟩

theorem sc_step {f : Nat} (hB : SB (A := A) f) (hC : SC (A := A) f) : SC (A := A) (f + 1) := by
  intro lv els r ls r' h
  simp only [parseChain] at h
  cases hp : parseBlk f lv r with
  | none => rw [hp] at h; cases h
  | some x =>
    obtain ⟨ls1, r1⟩ := x
    rw [hp] at h
    obtain ⟨t, o, s, hw, rfl, rfl, hs, hn⟩ := hB lv r ls1 r1 hp
    have done : NotElse r1 → some (t.lines ++ [Line.fin], r1) = some (ls, r') →
        ∃ t' e o s', Written (.chain t' e) o s' ∧ s ++ r1 = s' ++ r' ∧
          ls = t'.lines ++ (e.lines ++ [.fin]) ∧
          t'.scoped (inLoop lv) ∧ e.scoped (inLoop lv) ∧ NotElse r' ∧ (els = true → e = .none) := by
      intro hne h
      simp only [Option.some.injEq, Prod.mk.injEq] at h
      obtain ⟨rfl, rfl⟩ := h
      exact ⟨t, .none, true, s, .chainNone hw, rfl, rfl, hs, trivial, hne, fun _ => rfl⟩
    cases r1 with
    | nil => exact done (fun l r' h => by cases h) h
    | cons c r1 =>
      cases c with
      | lb => exact done (fun l r' h => by cases h) h
      | rb => exact done (fun l r' h => by cases h) h
      | line l =>
        simp only at h
        by_cases hl : l.isElse = true
        · rw [if_pos hl] at h
          have ho : o = false := by
            cases o with
            | false => rfl
            | true =>
              have := hn rfl l r1 rfl
              rw [hl] at this
              cases this
          subst ho
          cases els with
          | true => cases h
          | false =>
            rw [if_neg (by simp)] at h
            simp only [Option.map_eq_some_iff] at h
            obtain ⟨⟨ls2, r2⟩, hq, hx⟩ := h
            simp only [Prod.mk.injEq] at hx
            obtain ⟨rfl, rfl⟩ := hx
            obtain ⟨t', e, o', s', hw', rfl, rfl, ht', he, hn', hels⟩ := hC lv l.isEls r1 ls2 r2 hq
            cases l with
            | els =>
              have hh : e = .none := hels rfl
              subst hh
              cases hw' with
              | chainNone hb =>
                refine ⟨t, .els t', true, _, .chainEls hw hb, by simp, ?_, hs, ht', hn',
                  fun h => by cases h⟩
                simp [Else.lines]
            | elifc k neg a =>
              refine ⟨t, .elifc k neg a t' e, true, _, .chainElif hw hw', by simp, ?_, hs,
                ⟨ht', he⟩, hn', fun h => by cases h⟩
              simp [Else.lines]
            | _ => cases hl
        · rw [if_neg hl] at h
          refine done (fun l' r' hr => ?_) h
          simp only [List.cons.injEq, Src.line.injEq] at hr
          rw [← hr.1]
          simpa using hl

theorem s_all (f : Nat) : SL (A := A) f ∧ SB (A := A) f ∧ SK (A := A) f ∧ SC (A := A) f := by
  induction f with
  | zero =>
    refine ⟨?_, ?_, ?_, ?_⟩
    · intro lv l r ls r' h; simp [parseLine] at h
    · intro lv r ls r' h; simp [parseBlk] at h
    · intro lv r ls r' h; simp [parseBlock] at h
    · intro lv els r ls r' h; simp [parseChain] at h
  | succ f ih =>
    obtain ⟨hL, hB, hK, hC⟩ := ih
    exact ⟨sl_step hB hC, sblk_step hL hK, sk_step hL hK, sc_step hB hC⟩

theorem s_script : ∀ (f : Nat) (src : List (Src A)) (ls : List (Line A)),
    parseScript f src = some ls →
    ∃ p o, Written (.seq p) o src ∧ ls = p.lines ∧ p.scoped false
  | 0, src, ls, h => by simp [parseScript] at h
  | f + 1, src, ls, h => by
    cases src with
    | nil =>
      simp only [parseScript, Option.some.injEq] at h
      subst h
      exact ⟨.nil, false, .nil, rfl, trivial⟩
    | cons c r =>
      cases c with
      | line l =>
        simp only [parseScript] at h
        cases hp : parseLine f 0 l r with
        | none => rw [hp] at h; cases h
        | some x =>
          obtain ⟨ls1, r1⟩ := x
          rw [hp] at h
          simp only [Option.map_eq_some_iff] at h
          obtain ⟨ls2, hq, rfl⟩ := h
          obtain ⟨p, o, s, hw, hr, rfl, hs, _⟩ := (s_all f).1 0 l r ls1 r1 hp
          obtain ⟨q, o', hw', rfl, hs'⟩ := s_script f r1 ls2 hq
          rw [hr]
          exact ⟨p.app q, false, .cons hw hw', (lines_app p q).symm,
            (scoped_app p q _).mpr ⟨hs, hs'⟩⟩
      | lb => simp [parseScript] at h
      | rb => simp [parseScript] at h

/-! ## What is written so is accepted -/

theorem notElse_append {s r : List (Src A)} (h : s ≠ []) (hn : NotElse s) : NotElse (s ++ r) := by
  intro l r' hr
  cases s with
  | nil => exact absurd rfl h
  | cons c s =>
    simp only [List.cons_append, List.cons.injEq] at hr
    exact hn l s (by rw [hr.1])

theorem written_head {t : GT A} {o : Bool} {s : List (Src A)} (h : Written t o s) :
    (∀ p, t ≠ .seq p) → s ≠ [] ∧ NotElse s := by
  induction h with
  | var a => intro _; exact ⟨by simp, fun l r h => by cases h; rfl⟩
  | cmd a => intro _; exact ⟨by simp, fun l r h => by cases h; rfl⟩
  | cont => intro _; exact ⟨by simp, fun l r h => by cases h; rfl⟩
  | brk => intro _; exact ⟨by simp, fun l r h => by cases h; rfl⟩
  | ifc h ih => intro _; exact ⟨by simp, fun l r h => by cases h; rfl⟩
  | whl h ih => intro _; exact ⟨by simp, fun l r h => by cases h; rfl⟩
  | forS h ih => intro _; exact ⟨by simp, fun l r h => by cases h; rfl⟩
  | forA h ih => intro _; exact ⟨by simp, fun l r h => by cases h; rfl⟩
  | nil => intro h; exact absurd rfl (h _)
  | cons h h' ih ih' => intro h; exact absurd rfl (h _)
  | single h ih => intro _; exact ih (fun p h => by cases h)
  | braces h ih => intro _; exact ⟨by simp, fun l r h => by cases h⟩
  | chainNone h ih => intro _; exact ih (fun p h => by cases h)
  | chainEls h h' ih ih' =>
    intro _
    obtain ⟨h1, h2⟩ := ih (fun p h => by cases h)
    exact ⟨by simp, notElse_append h1 h2⟩
  | chainElif h h' ih ih' =>
    intro _
    obtain ⟨h1, h2⟩ := ih (fun p h => by cases h)
    exact ⟨by simp, notElse_append h1 h2⟩

theorem seq_head {p : Prog A} {o : Bool} {s r : List (Src A)} (h : Written (.seq p) o s)
    (hr : NotElse r) : NotElse (s ++ r) := by
  generalize ht : GT.seq p = t at h
  cases h with
  | nil => exact hr
  | cons h h' =>
    obtain ⟨h1, h2⟩ := written_head h (fun p h => by cases h)
    rw [List.append_assoc]
    exact notElse_append h1 h2
  | _ => cases ht

theorem notElse_rb (r : List (Src A)) : NotElse (.rb :: r) := fun l r' h => by cases h

theorem notElse_nil : NotElse ([] : List (Src A)) := fun l r' h => by cases h

/-- What is accepted, by what is written. -/
def Accepts (t : GT A) (o : Bool) (s : List (Src A)) : Prop :=
  match t with
  | .stmt p => ∀ lv r, p.scoped (inLoop lv) → (o = true → NotElse r) →
      ∃ l s', s = .line l :: s' ∧ ∀ f, 4 * s.length ≤ f →
        parseLine f lv l (s' ++ r) = some (p.lines, r)
  | .seq p => ∀ lv, p.scoped (inLoop lv) →
      (∀ r f, 4 * s.length + 1 ≤ f → parseBlock f lv (s ++ .rb :: r) = some (p.lines, r)) ∧
      (lv = 0 → ∀ f, 4 * s.length + 1 ≤ f → parseScript f s = some p.lines)
  | .blk p => ∀ lv r, p.scoped (inLoop lv) → (o = true → NotElse r) →
      ∀ f, 4 * s.length + 1 ≤ f → parseBlk f lv (s ++ r) = some (p.lines, r)
  | .chain t e => ∀ lv r, t.scoped (inLoop lv) → e.scoped (inLoop lv) → NotElse r →
      ∀ f, 4 * s.length + 2 ≤ f →
        parseChain f lv false (s ++ r) = some (t.lines ++ (e.lines ++ [.fin]), r)

theorem chain_done {f lv : Nat} {els : Bool} {src r : List (Src A)} {ls : List (Line A)}
    (h : parseBlk f lv src = some (ls, r)) (hn : NotElse r) :
    parseChain (f + 1) lv els src = some (ls ++ [.fin], r) := by
  rw [parseChain, h]
  cases r with
  | nil => rfl
  | cons c r =>
    cases c with
    | line l =>
      simp only
      rw [if_neg (by rw [hn l r rfl]; simp)]
    | lb => rfl
    | rb => rfl

theorem fuel {n f : Nat} (h : n + 1 ≤ f) : ∃ f', f = f' + 1 ∧ n ≤ f' := ⟨f - 1, by omega, by omega⟩

theorem accepts {t : GT A} {o : Bool} {s : List (Src A)} (h : Written t o s) : Accepts t o s := by
  induction h with
  | var a =>
    intro lv r _ _
    refine ⟨_, _, rfl, fun f hf => ?_⟩
    simp only [List.length_cons, List.length_nil] at hf
    obtain ⟨f, rfl, _⟩ := fuel (n := 0) (f := f) (by omega)
    simp only [parseLine, List.nil_append]
    rfl
  | cmd a =>
    intro lv r _ _
    refine ⟨_, _, rfl, fun f hf => ?_⟩
    simp only [List.length_cons, List.length_nil] at hf
    obtain ⟨f, rfl, _⟩ := fuel (n := 0) (f := f) (by omega)
    simp only [parseLine, List.nil_append]
    rfl
  | cont =>
    intro lv r hs _
    refine ⟨_, _, rfl, fun f hf => ?_⟩
    simp only [List.length_cons, List.length_nil] at hf
    obtain ⟨f, rfl, _⟩ := fuel (n := 0) (f := f) (by omega)
    have : ¬ lv = 0 := by
      have := hs.1
      simpa [inLoop] using this
    simp only [parseLine, List.nil_append]
    rw [if_neg this]
    rfl
  | brk =>
    intro lv r hs _
    refine ⟨_, _, rfl, fun f hf => ?_⟩
    simp only [List.length_cons, List.length_nil] at hf
    obtain ⟨f, rfl, _⟩ := fuel (n := 0) (f := f) (by omega)
    have : ¬ lv = 0 := by
      have := hs.1
      simpa [inLoop] using this
    simp only [parseLine, List.nil_append]
    rw [if_neg this]
    rfl
  | ifc h ih =>
    intro lv r hs hn
    refine ⟨_, _, rfl, fun f hf => ?_⟩
    simp only [List.length_cons] at hf
    obtain ⟨f, rfl, hf'⟩ := fuel (n := f - 1) (f := f) (by omega)
    simp only [parseLine]
    rw [ih lv r hs.1 hs.2.1 (hn rfl) f (by omega)]
    rfl
  | whl h ih =>
    intro lv r hs hn
    refine ⟨_, _, rfl, fun f hf => ?_⟩
    simp only [List.length_cons] at hf
    obtain ⟨f, rfl, hf'⟩ := fuel (n := f - 1) (f := f) (by omega)
    simp only [parseLine]
    rw [ih (lv + 1) r hs.1 hn f (by omega)]
    rfl
  | forS h ih =>
    intro lv r hs hn
    refine ⟨_, _, rfl, fun f hf => ?_⟩
    simp only [List.length_cons] at hf
    obtain ⟨f, rfl, hf'⟩ := fuel (n := f - 1) (f := f) (by omega)
    simp only [parseLine]
    rw [ih (lv + 1) r hs.1 hn f (by omega)]
    rfl
  | forA h ih =>
    intro lv r hs hn
    refine ⟨_, _, rfl, fun f hf => ?_⟩
    simp only [List.length_cons] at hf
    obtain ⟨f, rfl, hf'⟩ := fuel (n := f - 1) (f := f) (by omega)
    simp only [parseLine]
    rw [ih (lv + 1) r hs.1 hn f (by omega)]
    rfl
  | nil =>
    intro lv _
    refine ⟨fun r f hf => ?_, fun _ f hf => ?_⟩
    · obtain ⟨f, rfl, _⟩ := fuel (n := 0) (f := f) (by simpa using hf)
      simp only [List.nil_append, parseBlock, Prog.lines]
    · obtain ⟨f, rfl, _⟩ := fuel (n := 0) (f := f) (by simpa using hf)
      simp only [parseScript, Prog.lines]
  | cons h h' ih ih' =>
    rename_i p q o o' s s'
    intro lv hs
    obtain ⟨hs1, hs2⟩ := (scoped_app _ _ _).mp hs
    refine ⟨fun r f hf => ?_, fun hlv f hf => ?_⟩
    · obtain ⟨l, s1, rfl, hl⟩ := ih lv (s' ++ .rb :: r) hs1 (fun _ => seq_head h' (notElse_rb r))
      simp only [List.length_append, List.length_cons] at hf hl
      obtain ⟨f, rfl, hf'⟩ := fuel (n := f - 1) (f := f) (by omega)
      simp only [List.cons_append, List.append_assoc, parseBlock]
      rw [hl f (by omega)]
      simp only
      rw [(ih' lv hs2).1 r f (by omega)]
      simp [lines_app]
    · subst hlv
      obtain ⟨l, s1, rfl, hl⟩ := ih 0 s' hs1 (fun _ => by
        have := seq_head h' notElse_nil
        rwa [List.append_nil] at this)
      simp only [List.length_append, List.length_cons] at hf hl
      obtain ⟨f, rfl, hf'⟩ := fuel (n := f - 1) (f := f) (by omega)
      simp only [List.cons_append, parseScript]
      rw [hl f (by omega)]
      simp only
      rw [(ih' 0 hs2).2 rfl f (by omega)]
      simp [lines_app]
  | single h ih =>
    intro lv r hs hn f hf
    obtain ⟨l, s1, rfl, hl⟩ := ih lv r hs hn
    obtain ⟨f, rfl, hf'⟩ := fuel hf
    simp only [List.cons_append, parseBlk]
    exact hl f hf'
  | braces h ih =>
    intro lv r hs hn f hf
    simp only [List.length_cons, List.length_append, List.length_nil] at hf
    obtain ⟨f, rfl, hf'⟩ := fuel (n := f - 1) (f := f) (by omega)
    simp only [List.cons_append, List.append_assoc, List.nil_append, parseBlk]
    exact (ih lv hs).1 r f (by omega)
  | chainNone h ih =>
    intro lv r ht he hn f hf
    obtain ⟨f, rfl, hf'⟩ := fuel hf
    rw [chain_done (ih lv r ht (fun _ => hn) f hf') hn]
    rfl
  | chainEls h h' ih ih' =>
    rename_i t b o s s'
    intro lv r ht he hn f hf
    simp only [List.length_cons, List.length_append] at hf
    obtain ⟨f, rfl, hf'⟩ := fuel (n := f - 1) (f := f) (by omega)
    rw [List.append_assoc, List.cons_append, parseChain,
      ih lv _ ht (fun h => by cases h) f (by omega)]
    simp only [Line.isElse, Line.isEls, if_true, Bool.false_eq_true, if_false]
    obtain ⟨f, rfl, hf'⟩ := fuel (n := f - 1) (f := f) (by omega)
    rw [chain_done (ih' lv r he (fun _ => hn) f (by omega)) hn]
    simp [Else.lines]
  | chainElif h h' ih ih' =>
    rename_i k neg a t t' e o s s'
    intro lv r ht he hn f hf
    simp only [List.length_cons, List.length_append] at hf
    obtain ⟨f, rfl, hf'⟩ := fuel (n := f - 1) (f := f) (by omega)
    rw [List.append_assoc, List.cons_append, parseChain,
      ih lv _ ht (fun h => by cases h) f (by omega)]
    simp only [Line.isElse, Line.isEls, if_true, Bool.false_eq_true, if_false]
    rw [ih' lv r he.1 he.2 hn f (by omega)]
    simp [Else.lines]

/-! ## Syntax version 1 -/

/-- The statement for a line that is not `elif`, `else` or `end`. -/
def SL1 (f : Nat) : Prop := ∀ (lv : Nat) (fct : Option Bool) (l : Line A) (r r' : List (Line A)),
  l.isElse = false → l.isFin = false → parseLine1 f lv fct l r = some r' →
  ∃ p : Prog A, l :: r = p.lines ++ r' ∧ p.scoped (inLoop lv)

/-- The statement for an if-else construct. -/
def SC1 (f : Nat) : Prop := ∀ (lv : Nat) (els : Bool) (src r' : List (Line A)),
  parseChain1 f lv els src = some r' →
  ∃ (t : Prog A) (e : Else A), src = t.lines ++ (e.lines ++ .fin :: r') ∧ t.scoped (inLoop lv) ∧
    e.scoped (inLoop lv) ∧ (els = true → e = .none)

/-- The statement for a loop. -/
def SO1 (f : Nat) : Prop := ∀ (lv : Nat) (src r' : List (Line A)),
  parseLoop1 f lv src = some r' →
  ∃ b : Prog A, src = b.lines ++ .fin :: r' ∧ b.scoped (inLoop lv)

theorem s1_all (f : Nat) : SL1 (A := A) f ∧ SC1 (A := A) f ∧ SO1 (A := A) f := by
  induction f with
  | zero =>
    refine ⟨?_, ?_, ?_⟩
    · intro lv fct l r r' _ _ h; simp [parseLine1] at h
    · intro lv els src r' h; simp [parseChain1] at h
    · intro lv src r' h; simp [parseLoop1] at h
  | succ f ih =>
    obtain ⟨hL, hC, hO⟩ := ih
    refine ⟨?_, ?_, ?_⟩
    · intro lv fct l r r' he hf h
      cases l with
      | var a =>
        simp only [parseLine1, Option.some.injEq] at h
        subst h
        exact ⟨.var a .nil, rfl, trivial⟩
      | cmd a =>
        simp only [parseLine1, Option.some.injEq] at h
        subst h
        exact ⟨.cmd a .nil, rfl, trivial⟩
      | cont =>
        simp only [parseLine1] at h
        split at h
        · cases h
        · next hl =>
          simp only [Option.some.injEq] at h
          subst h
          exact ⟨.cont .nil, rfl, by simp [inLoop, hl], trivial⟩
      | brk =>
        simp only [parseLine1] at h
        split at h
        · cases h
        · next hl =>
          simp only [Option.some.injEq] at h
          subst h
          exact ⟨.brk .nil, rfl, by simp [inLoop, hl], trivial⟩
      | ifc k neg a =>
        simp only [parseLine1] at h
        obtain ⟨t, e, rfl, ht, he, _⟩ := hC lv false r r' h
        exact ⟨.ifc k neg a t e .nil, by simp [Prog.lines], ht, he, trivial⟩
      | whl a =>
        simp only [parseLine1] at h
        obtain ⟨b, rfl, hb⟩ := hO (lv + 1) r r' h
        exact ⟨.whl a b .nil, by simp [Prog.lines], hb, trivial⟩
      | forS a =>
        simp only [parseLine1] at h
        obtain ⟨b, rfl, hb⟩ := hO (lv + 1) r r' h
        exact ⟨.forS a b .nil, by simp [Prog.lines], hb, trivial⟩
      | forA a =>
        simp only [parseLine1] at h
        obtain ⟨b, rfl, hb⟩ := hO (lv + 1) r r' h
        exact ⟨.forA a b .nil, by simp [Prog.lines], hb, trivial⟩
      | elifc k neg a => cases he
      | els => cases he
      | fin => cases hf
    · intro lv els src r' h
      cases src with
      | nil => simp [parseChain1] at h
      | cons l r =>
        simp only [parseChain1] at h
        cases hp : parseLine1 f lv (some true) l r with
        | none => rw [hp] at h; cases h
        | some r1 =>
          rw [hp] at h
          simp only at h
          by_cases hf : l.isFin = true
          · rw [if_pos hf] at h
            cases l with
            | fin =>
              have : r1 = r := by
                cases f with
                | zero => simp [parseLine1] at hp
                | succ f => simpa [parseLine1] using hp.symm
              subst this
              simp only [Option.some.injEq] at h
              subst h
              exact ⟨.nil, .none, rfl, trivial, trivial, fun _ => rfl⟩
            | _ => cases hf
          · rw [if_neg hf] at h
            by_cases he : l.isElse = true
            · rw [he] at h
              cases els with
              | true => simp at h
              | false =>
                simp only [Bool.and_true, Bool.false_eq_true, if_false, if_true] at h
                obtain ⟨t, e, hsrc, ht, he', hels⟩ := hC lv _ r1 r' h
                cases l with
                | els =>
                  have : r1 = r := by
                    cases f with
                    | zero => simp [parseLine1] at hp
                    | succ f => simpa [parseLine1] using hp.symm
                  subst this
                  have hh : e = .none := hels rfl
                  subst hh
                  subst hsrc
                  exact ⟨.nil, .els t, by simp [Else.lines, Prog.lines], trivial, ht,
                    fun h => by cases h⟩
                | elifc k neg a =>
                  have : r1 = r := by
                    cases f with
                    | zero => simp [parseLine1] at hp
                    | succ f => simpa [parseLine1] using hp.symm
                  subst this
                  subst hsrc
                  exact ⟨.nil, .elifc k neg a t e, by simp [Else.lines, Prog.lines], trivial,
                    ⟨ht, he'⟩, fun h => by cases h⟩
                | _ => cases he
            · have he : l.isElse = false := by simpa using he
              have hf : l.isFin = false := by simpa using hf
              rw [he] at h
              simp only [Bool.and_false, Bool.false_eq_true, if_false] at h
              obtain ⟨p, hr, hs⟩ := hL lv (some true) l r r1 he hf hp
              obtain ⟨t, e, rfl, ht, he', hels⟩ := hC lv els r1 r' h
              exact ⟨p.app t, e, by rw [hr, lines_app]; simp, (scoped_app p t _).mpr ⟨hs, ht⟩,
                he', hels⟩
    · intro lv src r' h
      cases src with
      | nil => simp [parseLoop1] at h
      | cons l r =>
        simp only [parseLoop1] at h
        cases hp : parseLine1 f lv (some false) l r with
        | none => rw [hp] at h; cases h
        | some r1 =>
          rw [hp] at h
          simp only at h
          by_cases hf : l.isFin = true
          · rw [if_pos hf] at h
            cases l with
            | fin =>
              have : r1 = r := by
                cases f with
                | zero => simp [parseLine1] at hp
                | succ f => simpa [parseLine1] using hp.symm
              subst this
              simp only [Option.some.injEq] at h
              subst h
              exact ⟨.nil, rfl, trivial⟩
            | _ => cases hf
          · rw [if_neg hf] at h
            have hf : l.isFin = false := by simpa using hf
            have he : l.isElse = false := by
              cases f with
              | zero => simp [parseLine1] at hp
              | succ f =>
                cases l with
                | els => simp [parseLine1] at hp
                | elifc k neg a => simp [parseLine1] at hp
                | _ => rfl
            obtain ⟨p, hr, hs⟩ := hL lv (some false) l r r1 he hf hp
            obtain ⟨t, rfl, ht⟩ := hO lv r1 r' h
            exact ⟨p.app t, by rw [hr, lines_app]; simp, (scoped_app p t _).mpr ⟨hs, ht⟩⟩

theorem s1_script : ∀ (f : Nat) (src : List (Line A)), parseScript1 f src = true →
    ∃ p : Prog A, src = p.lines ∧ p.scoped false
  | 0, src, h => by simp [parseScript1] at h
  | f + 1, src, h => by
    cases src with
    | nil => exact ⟨.nil, rfl, trivial⟩
    | cons l r =>
      simp only [parseScript1] at h
      cases hp : parseLine1 f 0 none l r with
      | none => rw [hp] at h; cases h
      | some r1 =>
        rw [hp] at h
        have hf : l.isFin = false ∧ l.isElse = false := by
          cases f with
          | zero => simp [parseLine1] at hp
          | succ f =>
            cases l with
            | els => simp [parseLine1] at hp
            | elifc k neg a => simp [parseLine1] at hp
            | fin => simp [parseLine1] at hp
            | _ => exact ⟨rfl, rfl⟩
        obtain ⟨p, hr, hs⟩ := (s1_all f).1 0 none l r r1 hf.2 hf.1 hp
        obtain ⟨q, rfl, hq⟩ := s1_script f r1 h
        exact ⟨p.app q, by rw [hr, lines_app], (scoped_app p q _).mpr ⟨hs, hq⟩⟩

/-- Something that parses a sequence of lines line by line. -/
def Steps {R : Type} (lv : Nat) (fct : Option Bool) (K : Nat → List (Line A) → R) : Prop :=
  ∀ f l r r', l.isElse = false → l.isFin = false → parseLine1 f lv fct l r = some r' →
    K (f + 1) (l :: r) = K f r'

theorem steps_chain (lv : Nat) (els : Bool) :
    Steps (A := A) lv (some true) (fun f => parseChain1 f lv els) := by
  intro f l r r' he hf h
  simp only [parseChain1, h, he, hf]
  simp

theorem steps_loop (lv : Nat) : Steps (A := A) lv (some false) (fun f => parseLoop1 f lv) := by
  intro f l r r' he hf h
  simp only [parseLoop1, h, hf]
  simp

theorem steps_script : Steps (A := A) 0 none parseScript1 := by
  intro f l r r' he hf h
  simp only [parseScript1, h]

mutual

theorem acc_seq : ∀ (p : Prog A) (lv : Nat) (fct : Option Bool) (R : Type)
    (K : Nat → List (Line A) → R), Steps lv fct K → p.scoped (inLoop lv) →
    ∀ (c : Nat) (tail : List (Line A)) (v : R), (∀ f, c ≤ f → K f tail = v) →
    ∀ f, c + 4 * p.lines.length ≤ f → K f (p.lines ++ tail) = v
  | .nil, lv, fct, R, K, hK, hs, c, tail, v, h, f, hf => h f (by simpa [Prog.lines] using hf)
  | .var a r, lv, fct, R, K, hK, hs, c, tail, v, h, f, hf => by
    simp only [Prog.lines, List.length_cons, List.cons_append] at hf ⊢
    obtain ⟨f, rfl, _⟩ := fuel (n := f - 1) (f := f) (by omega)
    obtain ⟨f, rfl, _⟩ := fuel (n := f - 1) (f := f) (by omega)
    rw [hK (f + 1) _ _ (r.lines ++ tail) rfl rfl (by simp only [parseLine1])]
    exact acc_seq r lv fct R K hK hs c tail v h _ (by omega)
  | .cmd a r, lv, fct, R, K, hK, hs, c, tail, v, h, f, hf => by
    simp only [Prog.lines, List.length_cons, List.cons_append] at hf ⊢
    obtain ⟨f, rfl, _⟩ := fuel (n := f - 1) (f := f) (by omega)
    obtain ⟨f, rfl, _⟩ := fuel (n := f - 1) (f := f) (by omega)
    rw [hK (f + 1) _ _ (r.lines ++ tail) rfl rfl (by simp only [parseLine1])]
    exact acc_seq r lv fct R K hK hs c tail v h _ (by omega)
  | .cont r, lv, fct, R, K, hK, hs, c, tail, v, h, f, hf => by
    simp only [Prog.lines, List.length_cons, List.cons_append] at hf ⊢
    obtain ⟨f, rfl, _⟩ := fuel (n := f - 1) (f := f) (by omega)
    obtain ⟨f, rfl, _⟩ := fuel (n := f - 1) (f := f) (by omega)
    have hl : ¬ lv = 0 := by simpa [inLoop] using hs.1
    rw [hK (f + 1) _ _ (r.lines ++ tail) rfl rfl (by simp only [parseLine1]; rw [if_neg hl])]
    exact acc_seq r lv fct R K hK hs.2 c tail v h _ (by omega)
  | .brk r, lv, fct, R, K, hK, hs, c, tail, v, h, f, hf => by
    simp only [Prog.lines, List.length_cons, List.cons_append] at hf ⊢
    obtain ⟨f, rfl, _⟩ := fuel (n := f - 1) (f := f) (by omega)
    obtain ⟨f, rfl, _⟩ := fuel (n := f - 1) (f := f) (by omega)
    have hl : ¬ lv = 0 := by simpa [inLoop] using hs.1
    rw [hK (f + 1) _ _ (r.lines ++ tail) rfl rfl (by simp only [parseLine1]; rw [if_neg hl])]
    exact acc_seq r lv fct R K hK hs.2 c tail v h _ (by omega)
  | .whl a b r, lv, fct, R, K, hK, hs, c, tail, v, h, f, hf => by
    simp only [Prog.lines, List.length_cons, List.length_append, List.cons_append,
      List.append_assoc] at hf ⊢
    obtain ⟨f, rfl, _⟩ := fuel (n := f - 1) (f := f) (by omega)
    obtain ⟨f, rfl, _⟩ := fuel (n := f - 1) (f := f) (by omega)
    rw [hK (f + 1) _ _ (r.lines ++ tail) rfl rfl (by
      simp only [parseLine1]
      exact acc_loop b lv hs.1 (r.lines ++ tail) f (by omega))]
    exact acc_seq r lv fct R K hK hs.2 c tail v h _ (by omega)
  | .forS a b r, lv, fct, R, K, hK, hs, c, tail, v, h, f, hf => by
    simp only [Prog.lines, List.length_cons, List.length_append, List.cons_append,
      List.append_assoc] at hf ⊢
    obtain ⟨f, rfl, _⟩ := fuel (n := f - 1) (f := f) (by omega)
    obtain ⟨f, rfl, _⟩ := fuel (n := f - 1) (f := f) (by omega)
    rw [hK (f + 1) _ _ (r.lines ++ tail) rfl rfl (by
      simp only [parseLine1]
      exact acc_loop b lv hs.1 (r.lines ++ tail) f (by omega))]
    exact acc_seq r lv fct R K hK hs.2 c tail v h _ (by omega)
  | .forA a b r, lv, fct, R, K, hK, hs, c, tail, v, h, f, hf => by
    simp only [Prog.lines, List.length_cons, List.length_append, List.cons_append,
      List.append_assoc] at hf ⊢
    obtain ⟨f, rfl, _⟩ := fuel (n := f - 1) (f := f) (by omega)
    obtain ⟨f, rfl, _⟩ := fuel (n := f - 1) (f := f) (by omega)
    rw [hK (f + 1) _ _ (r.lines ++ tail) rfl rfl (by
      simp only [parseLine1]
      exact acc_loop b lv hs.1 (r.lines ++ tail) f (by omega))]
    exact acc_seq r lv fct R K hK hs.2 c tail v h _ (by omega)
  | .ifc k neg a t e r, lv, fct, R, K, hK, hs, c, tail, v, h, f, hf => by
    simp only [Prog.lines, List.length_cons, List.length_append, List.cons_append,
      List.append_assoc] at hf ⊢
    obtain ⟨f, rfl, _⟩ := fuel (n := f - 1) (f := f) (by omega)
    obtain ⟨f, rfl, _⟩ := fuel (n := f - 1) (f := f) (by omega)
    rw [hK (f + 1) _ _ (r.lines ++ tail) rfl rfl (by
      simp only [parseLine1]
      exact acc_seq t lv (some true) _ _ (steps_chain lv false) hs.1 (2 + 4 * e.lines.length) _ _
        (fun f hf => acc_else e lv hs.2.1 (r.lines ++ tail) f hf) f (by omega))]
    exact acc_seq r lv fct R K hK hs.2.2 c tail v h _ (by omega)

theorem acc_loop : ∀ (b : Prog A) (lv : Nat), b.scoped true → ∀ (tail : List (Line A)) (f : Nat),
    2 + 4 * b.lines.length ≤ f → parseLoop1 f (lv + 1) (b.lines ++ .fin :: tail) = some tail
  | b, lv, hs, tail, f, hf =>
    acc_seq b (lv + 1) (some false) _ _ (steps_loop (lv + 1)) hs 2 _ _
      (fun f hf => by
        obtain ⟨f, rfl, _⟩ := fuel (n := f - 1) (f := f) (by omega)
        obtain ⟨f, rfl, _⟩ := fuel (n := f - 1) (f := f) (by omega)
        simp [parseLoop1, parseLine1, Line.isFin]) f hf

theorem acc_else : ∀ (e : Else A) (lv : Nat), e.scoped (inLoop lv) →
    ∀ (tail : List (Line A)) (f : Nat), 2 + 4 * e.lines.length ≤ f →
    parseChain1 f lv false (e.lines ++ .fin :: tail) = some tail
  | .none, lv, hs, tail, f, hf => by
    obtain ⟨f, rfl, _⟩ := fuel (n := f - 1) (f := f) (by omega)
    obtain ⟨f, rfl, _⟩ := fuel (n := f - 1) (f := f) (by simp [Else.lines] at hf; omega)
    simp [Else.lines, parseChain1, parseLine1, Line.isFin]
  | .els b, lv, hs, tail, f, hf => by
    simp only [Else.lines, List.length_cons, List.cons_append] at hf ⊢
    obtain ⟨f, rfl, _⟩ := fuel (n := f - 1) (f := f) (by omega)
    obtain ⟨f, rfl, _⟩ := fuel (n := f - 1) (f := f) (by omega)
    rw [parseChain1]
    simp only [parseLine1, Line.isFin, Line.isElse, Line.isEls, if_true, Bool.false_eq_true,
      if_false, Bool.and_true]
    exact acc_seq b lv (some true) _ _ (steps_chain lv true) hs 2 _ _
      (fun f hf => by
        obtain ⟨f, rfl, _⟩ := fuel (n := f - 1) (f := f) (by omega)
        obtain ⟨f, rfl, _⟩ := fuel (n := f - 1) (f := f) (by omega)
        simp [parseChain1, parseLine1, Line.isFin]) _ (by omega)
  | .elifc k neg a t e, lv, hs, tail, f, hf => by
    simp only [Else.lines, List.length_cons, List.length_append, List.cons_append,
      List.append_assoc] at hf ⊢
    obtain ⟨f, rfl, _⟩ := fuel (n := f - 1) (f := f) (by omega)
    obtain ⟨f, rfl, _⟩ := fuel (n := f - 1) (f := f) (by omega)
    rw [parseChain1]
    simp only [parseLine1, Line.isFin, Line.isElse, Line.isEls, if_true, Bool.false_eq_true,
      if_false, Bool.and_true]
    exact acc_seq t lv (some true) _ _ (steps_chain lv false) hs.1 (2 + 4 * e.lines.length) _ _
      (fun f hf => acc_else e lv hs.2 tail f hf) _ (by omega)

end

end Verif.ScriptFlow
