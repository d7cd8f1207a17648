import Verif.OpState.Model

/-! Invariants of the model of the target operation state. -/
namespace Verif.OpState
open Verif.TargetState Verif.Util

/-- Owns the target. -/
def own : Pc → Nat
  | .lockGot .. | .locked .. | .applying .. | .noop | .executing | .finishing _ => 1
  | _ => 0

/-- The offset remembered by the owner. -/
def lv (b : Nat) : Pc → Nat
  | .lockGot e _ => e - b
  | .locked off _ => off
  | .applying .. => 3
  | .noop | .executing => 4
  | .finishing _ => 5
  | _ => 0

def isApp : Pc → Nat
  | .applying .. => 1
  | _ => 0

def isDep : Pc → Nat
  | .dependent => 1
  | _ => 0

def isTry : Pc → Nat
  | .execTry true => 1
  | _ => 0

def isExe : Pc → Nat
  | .executing | .finishing _ => 1
  | _ => 0

def isFin : Pc → Nat
  | .finishing _ => 1
  | _ => 0

/-- How far the target has got in the current operation. -/
def S.lvl (s : S) : Nat :=
  if s.tc < s.base + 6 then s.tc - s.base else tally (lv s.base) s.pcs

/-- What holds for a thread. -/
def ok (b l : Nat) (exe : Bool) (fin : Prop) (st : TState) (rf : Bool) : Pc → Prop
  | .idle => True
  | .lockTry e _ _ => exe = false ∧ e ≤ b + 5 ∧ (b + 4 ≤ e → 4 ≤ l)
  | .lockWait _ => True
  | .lockWoken e _ => e ≤ b + 5 ∧ (b + 4 ≤ e → 4 ≤ l)
  | .lockCheck e _ _ => exe = false ∧ e ≤ b + 5 ∧ (b + 4 ≤ e → 4 ≤ l)
  | .lockGot e _ => exe = false ∧ e ≤ b + 5
  | .locked off _ => 1 ≤ off ∧ off ≤ 5 ∧ (4 ≤ off → exe = false)
  | .applying c _ _ => exe = false ∧ c ≠ 0
  | .lockSkip => exe = false ∧ 4 ≤ l
  | .matched r => 4 ≤ l ∧ (r ≠ .failed → rf = false → l = 4 → st ≠ .failed)
  | .direct => 4 ≤ l
  | .dependent => 4 ≤ l ∧ (rf = false → l = 4 → st ≠ .failed)
  | .execTry c => exe = true ∧ 4 ≤ l ∧ (c = true → rf = false → l = 4 → st ≠ .failed)
  | .noop => exe = true ∧ (st = .unchanged ∨ st = .failed)
  | .executing => exe = true ∧ st = .unknown
  | .finishing r => exe = true ∧ st = r
  | .execWait => exe = true ∧ fin
  | .done r => rf = false → l = 5 ∧ r = trans st

/-- The invariant apart from the threads: `o`, `a`, `d`, `t`, `x`, `e` and `f` are the
numbers of threads that own it, are in apply(), are dependents, are about to
execute, own it in execution, run the recipe and have run it. -/
structure InvP (s : S) (o l a d t x e f : Nat) : Prop where
  own : (s.base + 6 ≤ s.tc ∧ o = 1) ∨ (s.tc < s.base + 6 ∧ o = 0)
  ap : l < 4 → s.applies = a
  ap1 : s.applies ≤ 1
  cu0 : 1 ≤ l → l < 4 → a = 0 → s.curA = 0
  cu4 : 4 ≤ l ∨ a ≠ 0 → s.curA ≠ 0
  nw : 4 ≤ l ∨ a ≠ 0 → s.now = true
  so : 4 ≤ l → s.setOn = some s.on
  ex1 : s.execs ≤ 1
  ex4 : s.refail = false → l ≤ 4 → s.execs = e
  dp : 1 ≤ l → s.deps = d
  gd : s.gd = d
  gt : s.refail = false → s.phfail = false →
    (l = 4 → s.state = .unknown → s.gt = f + 1) ∧ (l ≠ 4 ∨ s.state ≠ .unknown → s.gt = f)
  lm : s.last = true → t ≠ 0 → s.deps = 0
  tk : s.refail = false → s.taken = 0 ∨ d ≠ 0 ∨ t ≠ 0 ∨ x ≠ 0 ∨ l = 5
  st4 : s.refail = false → l = 4 →
    s.state = .unknown ∨ s.state = .unchanged ∨ s.state = .failed
  bd : s.refail = false → s.bad = false
  rf : s.refail = true → 4 ≤ l ∧ s.state = .failed

/-- Executed or being executed. -/
def fin (s : S) : Prop := s.tc = s.base + 5 ∨ tally exOwn s.pcs ≠ 0

structure Inv (s : S) : Prop where
  num : InvP s (tally own s.pcs) s.lvl (tally isApp s.pcs) (tally isDep s.pcs)
    (tally isTry s.pcs) (tally exOwn s.pcs) (tally isExe s.pcs) (tally isFin s.pcs)
  oks : ∀ (j : Nat) (q : Pc), s.pcs[j]? = some q →
    ok s.base s.lvl s.exe (fin s) s.state s.refail q

theorem tally_zero {w v : Pc → Nat} (h : ∀ t, v t = 0 → w t = 0) {l : List Pc}
    (hz : tally v l = 0) : tally w l = 0 := by
  induction l with
  | nil => rfl
  | cons a l ih =>
    rw [tally_cons] at hz ⊢
    have := h a (by omega)
    have := ih (by omega)
    omega

theorem lv_own (b : Nat) (t : Pc) (h : own t = 0) : lv b t = 0 := by
  cases t <;> first | (cases h; done) | rfl
theorem app_own (t : Pc) (h : own t = 0) : isApp t = 0 := by 
  cases t <;> first | (cases h; done) | rfl
theorem exOwn_own (t : Pc) (h : own t = 0) : exOwn t = 0 := by 
  cases t <;> first | (cases h; done) | rfl
theorem exe_own (t : Pc) (h : own t = 0) : isExe t = 0 := by 
  cases t <;> first | (cases h; done) | rfl
theorem fin_own (t : Pc) (h : own t = 0) : isFin t = 0 := by 
  cases t <;> first | (cases h; done) | rfl

/-- If nobody else owns the target then the weights of owners are those of the one
thread. -/
theorem sole {w : Pc → Nat} (hw : ∀ t, own t = 0 → w t = 0) {l : List Pc} {i : Nat} {p p' : Pc}
    (hi : l[i]? = some p) (hz : tally own (l.set i .idle) = 0) :
    tally w (l.set i p') = w p' := by
  have h1 := tally_zero hw hz
  have h2 := tally_set (w := w) (q := .idle) hi
  have h3 := tally_set (w := w) (q := p') hi
  have h4 : w .idle = 0 := hw _ rfl
  omega

theorem rest_zero {s : S} (h : Inv s) {i : Nat} {p : Pc} (hi : s.pcs[i]? = some p)
    (hp : own p = 1) : s.base + 6 ≤ s.tc ∧ tally own (s.pcs.set i .idle) = 0 := by
  have h1 := tally_le (w := own) hi
  have h2 := tally_set (w := own) (q := .idle) hi
  have h3 := h.num.own
  have h4 : own .idle = 0 := rfl
  omega

/-- Nobody owns it. -/
theorem free_zero {s : S} (h : Inv s) (ht : s.tc < s.base + 6) {i : Nat} {p : Pc}
    (hi : s.pcs[i]? = some p) : tally own (s.pcs.set i .idle) = 0 := by
  have h2 := tally_set (w := own) (q := .idle) hi
  have h3 := h.num.own
  have h4 : own .idle = 0 := rfl
  omega

theorem set_self {l : List Pc} {i : Nat} {p : Pc} (hi : l[i]? = some p) : l.set i p = l := by
  apply List.ext_getElem?
  intro j
  rw [List.getElem?_set]
  split
  · rename_i h; subst h
    split
    · exact hi.symm
    · rename_i h2
      rw [List.getElem?_eq_none (by omega)]
  · rfl

theorem lvl_own {s : S} (h : Inv s) {i : Nat} {p : Pc} (hi : s.pcs[i]? = some p)
    (hp : own p = 1) : s.lvl = lv s.base p := by
  obtain ⟨h1, h2⟩ := rest_zero h hi hp
  unfold S.lvl
  rw [if_neg (by omega)]
  have := sole (lv_own s.base) (p' := p) hi h2
  rwa [set_self hi] at this

theorem ok_mono {b l l' : Nat} {exe : Bool} {fn fn' : Prop} {st st' : TState} {rf rf' : Bool}
    (hrf : rf' = false → rf = false) (hl : 4 ≤ l → 4 ≤ l')
    (hst : rf' = false → 4 ≤ l → l' = 4 → l = 4 ∧ (st ≠ .failed → st' ≠ .failed))
    (hdone : rf' = false → l = 5 → l' = 5 ∧ st' = st) (hfin : exe = true → fn → fn')
    (q : Pc) (hq : own q = 0) (h : ok b l exe fn st rf q) : ok b l' exe fn' st' rf' q := by
  cases q with
  | idle => trivial
  | lockTry e o w => exact ⟨h.1, h.2.1, fun x => hl (h.2.2 x)⟩
  | lockWait o => trivial
  | lockWoken e o => exact ⟨h.1, fun x => hl (h.2 x)⟩
  | lockCheck e o w => exact ⟨h.1, h.2.1, fun x => hl (h.2.2 x)⟩
  | lockGot e o => cases hq
  | locked off o => cases hq
  | applying c a b => cases hq
  | lockSkip => exact ⟨h.1, hl h.2⟩
  | matched r =>
    refine ⟨hl h.1, fun hr h1 h2 => ?_⟩
    obtain ⟨h3, h4⟩ := hst h1 h.1 h2
    exact h4 (h.2 hr (hrf h1) h3)
  | direct => exact hl h
  | dependent =>
    refine ⟨hl h.1, fun h1 h2 => ?_⟩
    obtain ⟨h3, h4⟩ := hst h1 h.1 h2
    exact h4 (h.2 (hrf h1) h3)
  | execTry c =>
    refine ⟨h.1, hl h.2.1, fun hr h1 h2 => ?_⟩
    obtain ⟨h3, h4⟩ := hst h1 h.2.1 h2
    exact h4 (h.2.2 hr (hrf h1) h3)
  | noop => cases hq
  | executing => cases hq
  | finishing r => cases hq
  | execWait => exact ⟨h.1, hfin h.1 h.2⟩
  | done r =>
    intro h1
    obtain ⟨h2, h3⟩ := h (hrf h1)
    obtain ⟨h4, h5⟩ := hdone h1 h2
    exact ⟨h4, by rw [h5]; exact h3⟩

/-- A move of a thread that doesn't own the target and doesn't change anything else. -/
theorem inv_move {s : S} (h : Inv s) {i : Nat} {p p' : Pc} (hi : s.pcs[i]? = some p)
    (h1 : own p = 0) (h1' : own p' = 0) (h2 : isDep p = isDep p') (h3 : isTry p = isTry p')
    (hok : ok s.base s.lvl s.exe (fin s) s.state s.refail p') : Inv (s.put i p') := by
  have key : ∀ w : Pc → Nat, w p = w p' → tally w (s.pcs.set i p') = tally w s.pcs := by
    intro w hw
    have := tally_set (w := w) (q := p') hi
    omega
  have k1 := key own (by rw [h1, h1'])
  have k2 := key (lv s.base) (by rw [lv_own _ _ h1, lv_own _ _ h1'])
  have k3 := key isApp (by rw [app_own _ h1, app_own _ h1'])
  have k4 := key exOwn (by rw [exOwn_own _ h1, exOwn_own _ h1'])
  have k5 := key isExe (by rw [exe_own _ h1, exe_own _ h1'])
  have k6 := key isFin (by rw [fin_own _ h1, fin_own _ h1'])
  have k7 := key isDep h2
  have k8 := key isTry h3
  have hl : (s.put i p').lvl = s.lvl := by
    show (if s.tc < s.base + 6 then s.tc - s.base else tally (lv s.base) (s.pcs.set i p')) = _
    rw [k2]; rfl
  have hf : fin (s.put i p') = fin s := by
    show (s.tc = s.base + 5 ∨ tally exOwn (s.pcs.set i p') ≠ 0) = _
    rw [k4]; rfl
  constructor
  · rw [hl]
    show InvP _ (tally own (s.pcs.set i p')) s.lvl (tally isApp (s.pcs.set i p'))
      (tally isDep (s.pcs.set i p')) (tally isTry (s.pcs.set i p')) (tally exOwn (s.pcs.set i p'))
      (tally isExe (s.pcs.set i p')) (tally isFin (s.pcs.set i p'))
    rw [k1, k3, k4, k5, k6, k7, k8]
    obtain ⟨a1, a2, a3, a4, a5, a6, a7, a8, a9, a10, a11, a12, a13, a14, a15, a16, a17⟩ := h.num
    exact ⟨a1, a2, a3, a4, a5, a6, a7, a8, a9, a10, a11, a12, a13, a14, a15, a16, a17⟩
  · rw [hl, hf]
    intro j q hj
    rcases get_set hj with ⟨_, rfl⟩ | ⟨_, hj⟩
    · exact hok
    · exact h.oks j q hj

/-- A step of a thread that doesn't own the target and changes the number of
dependents. -/
theorem inv_free {s s' : S} (h : Inv s) {i : Nat} {p p' : Pc} (hi : s.pcs[i]? = some p)
    (h1 : own p = 0) (h1' : own p' = 0) (hpcs : s'.pcs = s.pcs.set i p')
    (hon : s'.on = s.on) (hexe : s'.exe = s.exe) (htc : s'.tc = s.tc) (hst : s'.state = s.state)
    (hrf : s'.refail = s.refail)
    (hnum : ∀ d' t', d' + isDep p = tally isDep s.pcs + isDep p' →
      t' + isTry p = tally isTry s.pcs + isTry p' →
      InvP s' (tally own s.pcs) s.lvl (tally isApp s.pcs) d' t' (tally exOwn s.pcs)
        (tally isExe s.pcs) (tally isFin s.pcs))
    (hok : ok s.base s.lvl s.exe (fin s) s.state s.refail p') : Inv s' := by
  have hb : s'.base = s.base := by simp only [S.base, hon]
  have key : ∀ w : Pc → Nat, w p = w p' → tally w (s.pcs.set i p') = tally w s.pcs := by
    intro w hw
    have := tally_set (w := w) (q := p') hi
    omega
  have k1 := key own (by rw [h1, h1'])
  have k2 := key (lv s.base) (by rw [lv_own _ _ h1, lv_own _ _ h1'])
  have k3 := key isApp (by rw [app_own _ h1, app_own _ h1'])
  have k4 := key exOwn (by rw [exOwn_own _ h1, exOwn_own _ h1'])
  have k5 := key isExe (by rw [exe_own _ h1, exe_own _ h1'])
  have k6 := key isFin (by rw [fin_own _ h1, fin_own _ h1'])
  have k7 := tally_set (w := isDep) (q := p') hi
  have k8 := tally_set (w := isTry) (q := p') hi
  rw [← hpcs] at k1 k2 k3 k4 k5 k6 k7 k8
  have hl : s'.lvl = s.lvl := by
    unfold S.lvl
    rw [hb, htc, k2]
  have hf : fin s' = fin s := by
    unfold fin
    rw [hb, htc, k4]
  constructor
  · rw [k1, k3, k4, k5, k6, hl]
    exact hnum _ _ k7 k8
  · rw [hb, hl, hexe, hf, hst, hrf]
    intro j q hj
    rw [hpcs] at hj
    rcases get_set hj with ⟨_, rfl⟩ | ⟨_, hj⟩
    · exact hok
    · exact h.oks j q hj

/-- A step of a thread after which (and before, save for itself) nobody else owns
the target. -/
theorem inv_own {s s' : S} (h : Inv s) {i : Nat} {p p' : Pc} (hi : s.pcs[i]? = some p)
    (hz : tally own (s.pcs.set i .idle) = 0) (hpcs : s'.pcs = s.pcs.set i p')
    (hon : s'.on = s.on) (hexe : s'.exe = s.exe) {l' : Nat}
    (hl : (own p' = 1 ∧ s.base + 6 ≤ s'.tc ∧ l' = lv s.base p') ∨
      (own p' = 0 ∧ s'.tc < s.base + 6 ∧ l' = s'.tc - s.base))
    (hd : isDep p = 0 ∧ isDep p' = 0 ∧ isTry p' = 0)
    (hnum : ∀ t, InvP s (own p) s.lvl (isApp p) (tally isDep s.pcs) (t + isTry p) (exOwn p)
      (isExe p) (isFin p) →
      InvP s' (own p') l' (isApp p') (tally isDep s.pcs) t (exOwn p') (isExe p') (isFin p'))
    (hok : ok s.base l' s.exe (s'.tc = s.base + 5 ∨ exOwn p' ≠ 0) s'.state s'.refail p')
    (hoth : ∀ q, own q = 0 → ok s.base s.lvl s.exe (fin s) s.state s.refail q →
      ok s.base l' s.exe (s'.tc = s.base + 5 ∨ exOwn p' ≠ 0) s'.state s'.refail q) : Inv s' := by
  have hb : s'.base = s.base := by simp only [S.base, hon]
  have k1 := sole (w := own) (fun t h => h) (p' := p') hi hz
  have k2 := sole (lv_own s.base) (p' := p') hi hz
  have k3 := sole app_own (p' := p') hi hz
  have k4 := sole exOwn_own (p' := p') hi hz
  have k5 := sole exe_own (p' := p') hi hz
  have k6 := sole fin_own (p' := p') hi hz
  have k7 := tally_set (w := isDep) (q := p') hi
  have k8 := tally_set (w := isTry) (q := p') hi
  rw [← hpcs] at k1 k2 k3 k4 k5 k6 k7 k8
  have hlv : s'.lvl = l' := by
    unfold S.lvl
    rw [hb, k2]
    rcases hl with ⟨_, h2, rfl⟩ | ⟨_, h2, rfl⟩
    · rw [if_neg (by omega)]
    · rw [if_pos h2]
  have hf : fin s' = (s'.tc = s.base + 5 ∨ exOwn p' ≠ 0) := by
    simp only [fin, hb, k4]
  constructor
  · rw [k1, k3, k4, k5, k6, hlv]
    have e1 : tally isDep s'.pcs = tally isDep s.pcs := by omega
    have e2 : tally isTry s'.pcs + isTry p = tally isTry s.pcs := by omega
    rw [e1]
    apply hnum
    rw [e2]
    have q1 := sole (w := own) (fun t h => h) (p' := p) hi hz
    have q3 := sole app_own (p' := p) hi hz
    have q4 := sole exOwn_own (p' := p) hi hz
    have q5 := sole exe_own (p' := p) hi hz
    have q6 := sole fin_own (p' := p) hi hz
    rw [set_self hi] at q1 q3 q4 q5 q6
    rw [← q1, ← q3, ← q4, ← q5, ← q6]
    exact h.num
  · rw [hb, hlv, hexe, hf]
    intro j q hj
    rw [hpcs] at hj
    rcases get_set hj with ⟨_, rfl⟩ | ⟨hji, hj⟩
    · exact hok
    · apply hoth q _ (h.oks j q hj)
      have hj' : (s.pcs.set i .idle)[j]? = some q := by
        rw [List.getElem?_set_ne (by omega)]; exact hj
      have := tally_le (w := own) hj'
      omega

end Verif.OpState
