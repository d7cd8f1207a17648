import Verif.Active.Model

/-! Helper lemmas: the inductive invariant. -/
namespace Verif.Active

/-- Sum of a weight over the threads. -/
def tally (w : Thr → Nat) (l : List Thr) : Nat := (l.map w).sum

theorem tally_set {w : Thr → Nat} {l : List Thr} {i : Nat} {p q : Thr} (h : l[i]? = some p) :
    tally w (l.set i q) + w p = tally w l + w q := by
  induction l generalizing i with
  | nil => simp at h
  | cons a l ih =>
    cases i with
    | zero => simp at h; subst h; simp [tally]; omega
    | succ i =>
      simp at h
      have := ih h
      simp [tally] at this ⊢; omega

theorem tally_le {w : Thr → Nat} {l : List Thr} {i : Nat} {p : Thr} (h : l[i]? = some p) :
    w p ≤ tally w l := by
  have := tally_set (w := w) (q := { p with st := .run }) h
  induction l generalizing i with
  | nil => simp at h
  | cons a l ih =>
    cases i with
    | zero => simp at h; subst h; simp [tally]
    | succ i =>
      simp at h
      have := ih h (tally_set h)
      simp [tally] at this ⊢; omega

theorem tally_append (w : Thr → Nat) (l : List Thr) (t : Thr) :
    tally w (l ++ [t]) = tally w l + w t := by simp [tally]

theorem tally_map {w : Thr → Nat} {f : Thr → Thr} (h : ∀ t, w (f t) = w t) (l : List Thr) :
    tally w (l.map f) = tally w l := by
  simp only [tally, List.map_map]
  congr 1
  apply List.map_congr_left
  intro t _; exact h t

def wSt (f : TS) (t : Thr) : Nat := if t.st = f then 1 else 0
def wWait (t : Thr) : Nat := match t.st with | .wait _ => 1 | _ => 0
def wExt (t : Thr) : Nat := match t.st with | .wait true => 1 | _ => 0
def wHelper (t : Thr) : Nat := if t.helper then 1 else 0
/-- A thread that holds tokens but does not run. -/
def wBad (t : Thr) : Nat := if t.st ≠ .run ∧ t.held ≠ 0 then 1 else 0
/-- A thread that is inside deallocate() but does not run. -/
def wBad2 (t : Thr) : Nat := if t.st ≠ .run ∧ t.pend ≠ 0 then 1 else 0

/-- The accounting invariant. -/
structure Core (s : St) : Prop where
  pos : 1 ≤ s.max
  le : s.active ≤ s.max
  act : s.active = tally (wSt .run) s.threads + tally (·.extra) s.threads + s.jsActive
  wai : s.waiting = tally wWait s.threads
  ext : s.external = tally wExt s.threads
  rdy : s.ready = tally (wSt .readyRun) s.threads + tally (wSt .readySleep) s.threads
  idl : s.idle = tally (wSt .idleSleep) s.threads + tally (wSt .idleWoken) s.threads
  sta : s.starting = tally (wSt .starting) s.threads
  hel : s.helpers = tally wHelper s.threads
  len : s.threads.length = s.helpers + 1
  bad : tally wBad s.threads = 0
  bad2 : tally wBad2 s.threads = 0
  tok : s.jsIssued = s.pipe + tally (·.held) s.threads
  debt : s.jsDebt = true → s.jsIssued = s.jsActive + 1

/-- No ready thread sleeps unless enough others, but for `n`, have been woken
to take the free slots. -/
def Live (n : Nat) (s : St) : Prop :=
  tally (wSt .readySleep) s.threads ≠ 0 →
    s.max ≤ s.active + n + tally (wSt .readyRun) s.threads

/-- If nobody is active and there are tasks then somebody was woken. -/
def Stall (s : St) : Prop :=
  s.active = 0 → s.queued ≠ 0 →
    tally (wSt .readyRun) s.threads + tally (wSt .starting) s.threads +
      tally (wSt .idleWoken) s.threads ≠ 0

/-- What depends on the monitor. -/
def InvMon (s : St) : Prop :=
  match s.mon with
  | .write => s.jsIssued = s.jsActive ∧ s.jsDebt = false
  | .read => s.jsIssued = s.jsActive + 1 ∧ s.jsDebt = false
  | .eval r => r ≤ s.jsIssued ∧ s.jsActive ≤ s.jsIssued ∧ s.jsIssued ≤ s.jsActive + 1
  | _ => s.jsActive ≤ s.jsIssued ∧ s.jsIssued ≤ s.jsActive + 1

theorem wSum (t : Thr) : wSt .run t + wWait t + wSt .readyRun t + wSt .readySleep t +
    wSt .starting t + wSt .idleSleep t + wSt .idleWoken t = 1 := by
  unfold wSt wWait
  cases t.st <;> rfl

theorem pick_some {l : List Thr} {f : TS} {k j : Nat} (h : pick l f k = some j) :
    ∃ t, l[j]? = some t ∧ t.st = f := by
  have hf : ∀ {j}, l.findIdx? (fun t => t.st = f) = some j → ∃ t, l[j]? = some t ∧ t.st = f := by
    intro j h
    obtain ⟨hl, hp, _⟩ := List.findIdx?_eq_some_iff_getElem.mp h
    exact ⟨l[j], List.getElem?_eq_getElem hl, by simpa using hp⟩
  unfold pick at h
  split at h
  · split at h
    · cases h; exact ⟨_, ‹_›, ‹_›⟩
    · exact hf h
  · exact hf h

theorem pick_none {l : List Thr} {f : TS} {k : Nat} (h : pick l f k = none) :
    tally (wSt f) l = 0 := by
  have hf : l.findIdx? (fun t => t.st = f) = none → tally (wSt f) l = 0 := by
    intro h
    rw [List.findIdx?_eq_none_iff] at h
    unfold tally
    rw [List.sum_eq_zero_iff_forall_eq_nat]
    intro n hn
    obtain ⟨t, ht, rfl⟩ := List.mem_map.mp hn
    have := h t ht
    simp at this
    simp [wSt, this]
  unfold pick at h
  split at h
  · split at h
    · cases h
    · exact hf h
  · exact hf h

/-- Change of one thread, for all weights. -/
structure Chg (l l' : List Thr) (p q : Thr) : Prop where
  t : ∀ w, tally w l' + w p = tally w l + w q
  n : l'.length = l.length

theorem chg_set {l : List Thr} {i : Nat} {p q : Thr} (h : l[i]? = some p) :
    Chg l (l.set i q) p q := ⟨fun _ => tally_set h, by simp⟩

/-- All the equations about a change of a thread. -/
structure Eqs (l l' : List Thr) (p q : Thr) : Prop where
  e1 : tally (wSt .run) l' + wSt .run p = tally (wSt .run) l + wSt .run q
  e2 : tally wWait l' + wWait p = tally wWait l + wWait q
  e3 : tally wExt l' + wExt p = tally wExt l + wExt q
  e4 : tally (wSt .readyRun) l' + wSt .readyRun p = tally (wSt .readyRun) l + wSt .readyRun q
  e5 : tally (wSt .readySleep) l' + wSt .readySleep p =
    tally (wSt .readySleep) l + wSt .readySleep q
  e6 : tally (wSt .starting) l' + wSt .starting p = tally (wSt .starting) l + wSt .starting q
  e7 : tally (wSt .idleSleep) l' + wSt .idleSleep p = tally (wSt .idleSleep) l + wSt .idleSleep q
  e8 : tally (wSt .idleWoken) l' + wSt .idleWoken p = tally (wSt .idleWoken) l + wSt .idleWoken q
  e9 : tally wHelper l' + wHelper p = tally wHelper l + wHelper q
  e10 : tally (·.extra) l' + p.extra = tally (·.extra) l + q.extra
  e11 : tally (·.held) l' + p.held = tally (·.held) l + q.held
  e12 : tally wBad l' + wBad p = tally wBad l + wBad q
  e13 : tally wBad2 l' + wBad2 p = tally wBad2 l + wBad2 q
  n : l'.length = l.length

theorem Chg.eqs {l l' : List Thr} {p q : Thr} (c : Chg l l' p q) : Eqs l l' p q :=
  ⟨c.t _, c.t _, c.t _, c.t _, c.t _, c.t _, c.t _, c.t _, c.t _, c.t _, c.t _, c.t _, c.t _, c.n⟩

theorem bad_zero {s : St} (c : Core s) {i : Nat} {t : Thr} (h : s.threads[i]? = some t)
    (hr : t.st ≠ .run) : t.held = 0 ∧ t.pend = 0 := by
  have h1 := tally_le (w := wBad) h
  have h2 := tally_le (w := wBad2) h
  rw [c.bad] at h1
  rw [c.bad2] at h2
  simp [wBad, hr] at h1
  simp [wBad2, hr] at h2
  constructor
  · apply Decidable.byContradiction; intro h; simp [h] at h1
  · apply Decidable.byContradiction; intro h; simp [h] at h2

/-- What notifying the ready queue does. -/
theorem notifyReady_spec {s : St} (c : Core s) (k : Nat) :
    let s' := notifyOne s .readySleep .readyRun k
    Core s' ∧ (Live 1 s → Live 0 s') ∧ (s.ready ≠ 0 → Stall s') ∧
      s'.active = s.active ∧ s'.max = s.max ∧ s'.jsActive = s.jsActive ∧
      s'.jsDebt = s.jsDebt ∧ s'.jsIssued = s.jsIssued ∧ s'.mon = s.mon := by
  intro s'
  have hs : s' = notifyOne s .readySleep .readyRun k := rfl
  unfold notifyOne at hs
  split at hs
  · rename_i j hj
    obtain ⟨t, ht, hst⟩ := pick_some hj
    simp only [setSt, ht] at hs
    have hb := bad_zero c ht (by simp [hst])
    have e := (chg_set (q := { t with st := .readyRun }) ht).eqs
    generalize s.threads.set j { t with st := .readyRun } = l' at e hs
    obtain ⟨e1, e2, e3, e4, e5, e6, e7, e8, e9, e10, e11, e12, e13, en⟩ := e
    simp only [wSt, wWait, wExt, wHelper, wBad, wBad2, hst, hb, reduceCtorEq, if_true, if_false,
      ne_eq, not_true_eq_false, not_false_eq_true, and_false, and_true, Nat.add_zero]
      at e1 e2 e3 e4 e5 e6 e7 e8 e12 e13
    obtain ⟨c1, c2, c3, c4, c5, c6, c7, c8, c9, c10, c11, c12, c13, c14⟩ := c
    rw [hs]
    refine ⟨⟨c1, c2, ?_, ?_, ?_, ?_, ?_, ?_, ?_, ?_, ?_, ?_, ?_, c14⟩, ?_, ?_, rfl, rfl, rfl, rfl,
      rfl, rfl⟩ <;> simp only [Live, Stall] at * <;> simp only [wHelper] at * <;> omega
  · rename_i hj
    have h0 := pick_none hj
    rw [hs]
    refine ⟨c, ?_, ?_, rfl, rfl, rfl, rfl, rfl, rfl⟩
    · intro _ h; exact absurd h0 h
    · intro hr _ _
      have := c.rdy
      omega

theorem notifyAllReady_spec {s : St} (c : Core s) :
    let s' := notifyAllReady s
    Core s' ∧ Live 0 s' ∧ (s.ready ≠ 0 → Stall s') ∧
      s'.active = s.active ∧ s'.max = s.max ∧ s'.jsActive = s.jsActive ∧
      s'.jsDebt = s.jsDebt ∧ s'.jsIssued = s.jsIssued ∧ s'.mon = s.mon := by
  intro s'
  have hm : ∀ w : Thr → Nat, (∀ t, t.st = .readySleep → w { t with st := .readyRun } = w t) →
      tally w (s.threads.map wakeReady) = tally w s.threads := by
    intro w hw
    apply tally_map
    intro t; unfold wakeReady; split
    · exact hw t ‹_›
    · rfl
  have h0 : tally (wSt .readySleep) (s.threads.map wakeReady) = 0 := by
    unfold tally
    rw [List.sum_eq_zero_iff_forall_eq_nat]
    intro n hn
    simp only [List.mem_map] at hn
    obtain ⟨t, ⟨u, hu, rfl⟩, rfl⟩ := hn
    unfold wakeReady wSt; split <;> simp_all
  have h1 : tally (wSt .readyRun) (s.threads.map wakeReady) =
      tally (wSt .readyRun) s.threads + tally (wSt .readySleep) s.threads := by
    generalize s.threads = l
    induction l with
    | nil => rfl
    | cons a l ih =>
      simp only [tally, List.map_cons, List.sum_cons] at ih ⊢
      rw [ih]
      have : wSt .readyRun (wakeReady a) = wSt .readyRun a + wSt .readySleep a := by
        unfold wakeReady wSt; split <;> simp_all
      omega
  have hbb : ∀ w : Thr → Nat, w = wBad ∨ w = wBad2 → tally w (s.threads.map wakeReady) =
      tally w s.threads := by
    intro w hw
    apply hm
    intro t ht
    rcases hw with rfl | rfl
    · simp [wBad, ht]
    · simp [wBad2, ht]
  obtain ⟨c1, c2, c3, c4, c5, c6, c7, c8, c9, c10, c11, c12, c13, c14⟩ := c
  have m1 := hm (wSt .run) (fun t h => by simp [wSt, h])
  have m2 := hm wWait (fun t h => by simp [wWait, h])
  have m3 := hm wExt (fun t h => by simp [wExt, h])
  have m4 := hm (wSt .idleSleep) (fun t h => by simp [wSt, h])
  have m5 := hm (wSt .idleWoken) (fun t h => by simp [wSt, h])
  have m6 := hm (wSt .starting) (fun t h => by simp [wSt, h])
  have m7 := hm wHelper (fun t h => by simp [wHelper])
  have m8 := hm (·.extra) (fun t h => rfl)
  have m9 := hm (·.held) (fun t h => rfl)
  have m10 := hbb _ (Or.inl rfl)
  have m11 := hbb _ (Or.inr rfl)
  have hs : s' = notifyAllReady s := rfl
  unfold notifyAllReady at hs
  rw [hs]
  refine ⟨⟨c1, c2, ?_, ?_, ?_, ?_, ?_, ?_, ?_, ?_, ?_, ?_, ?_, c14⟩, ?_, ?_, rfl, rfl, rfl, rfl,
      rfl, rfl⟩ <;> simp only [Live, Stall, List.length_map] at * <;> omega

/-- What activate_helper() does. -/
theorem activateHelper_spec {s s' : St} (c : Core s) (k : Nat)
    (h : activateHelper s k = .kept s' ∨ activateHelper s k = .created s') :
    Core s' ∧ (∀ n, Live n s → Live n s') ∧ Stall s' ∧
      s'.active = s.active ∧ s'.max = s.max ∧ s'.jsActive = s.jsActive ∧
      s'.jsDebt = s.jsDebt ∧ s'.jsIssued = s.jsIssued ∧ s'.mon = s.mon ∧
      s'.queued = s.queued ∧ s'.ready = s.ready := by
  unfold activateHelper at h
  split at h
  · rename_i hi
    have hs : notifyOne s .idleSleep .idleWoken k = s' := by
      rcases h with h | h <;> cases h; rfl
    unfold notifyOne at hs
    split at hs
    · rename_i j hj
      obtain ⟨t, ht, hst⟩ := pick_some hj
      simp only [setSt, ht] at hs
      have hb := bad_zero c ht (by simp [hst])
      have e := (chg_set (q := { t with st := .idleWoken }) ht).eqs
      generalize s.threads.set j { t with st := .idleWoken } = l' at e hs
      obtain ⟨e1, e2, e3, e4, e5, e6, e7, e8, e9, e10, e11, e12, e13, en⟩ := e
      simp only [wSt, wWait, wExt, wHelper, wBad, wBad2, hst, hb, reduceCtorEq, if_true, if_false,
        ne_eq, not_true_eq_false, not_false_eq_true, and_false, and_true, Nat.add_zero]
        at e1 e2 e3 e4 e5 e6 e7 e8 e12 e13
      obtain ⟨c1, c2, c3, c4, c5, c6, c7, c8, c9, c10, c11, c12, c13, c14⟩ := c
      rw [← hs]
      refine ⟨⟨c1, c2, ?_, ?_, ?_, ?_, ?_, ?_, ?_, ?_, ?_, ?_, ?_, c14⟩, ?_, ?_, rfl, rfl, rfl, rfl,
        rfl, rfl, rfl, rfl⟩ <;> simp only [Live, Stall] at * <;> simp only [wHelper] at * <;> omega
    · rename_i hj
      have h0 := pick_none hj
      rw [← hs]
      refine ⟨c, fun n h => h, ?_, rfl, rfl, rfl, rfl, rfl, rfl, rfl, rfl⟩
      intro _ _
      have := c.idl
      omega
  · split at h
    · have hs := h.resolve_left (fun h => by cases h)
      injection hs with hs
      obtain ⟨c1, c2, c3, c4, c5, c6, c7, c8, c9, c10, c11, c12, c13, c14⟩ := c
      rw [← hs]
      refine ⟨⟨c1, c2, ?_, ?_, ?_, ?_, ?_, ?_, ?_, ?_, ?_, ?_, ?_, c14⟩, ?_, ?_, rfl, rfl, rfl, rfl,
        rfl, rfl, rfl, rfl⟩ <;>
      simp only [Live, Stall, tally_append, List.length_append, List.length_cons,
        List.length_nil] <;>
      simp only [wSt, wWait, wExt, wHelper, wBad, wBad2, reduceCtorEq, if_true, if_false, ne_eq,
        not_true_eq_false, not_false_eq_true, and_false, and_true] at * <;> omega
    · rcases h with h | h <;> cases h

theorem activateHelper_no {s : St} {k : Nat} (h : activateHelper s k = .no) :
    ¬ (s.active = 0 ∧ s.queued ≠ 0) := by
  unfold activateHelper at h
  split at h
  · cases h
  · split at h
    · cases h
    · rename_i h'; intro hc; exact h' (Or.inr hc)

theorem payDebt_spec {s : St} (c : Core s) (hl : s.active < s.max) :
    Core (payDebt s) ∧ (∀ n, Live n s → Live n (payDebt s)) ∧ (Stall s → Stall (payDebt s)) ∧
      (payDebt s).jsIssued = s.jsIssued ∧ (payDebt s).mon = s.mon ∧
      (InvMon s → InvMon (payDebt s)) := by
  unfold payDebt
  split
  · rename_i hd
    have hdd := c.debt hd
    obtain ⟨c1, c2, c3, c4, c5, c6, c7, c8, c9, c10, c11, c12, c13, c14⟩ := c
    refine ⟨⟨c1, ?_, ?_, c4, c5, c6, c7, c8, c9, c10, c11, c12, c13, by simp⟩, ?_, ?_, rfl, rfl,
      ?_⟩
    · dsimp only; omega
    · dsimp only; omega
    · intro n h; simp only [Live] at *; omega
    · intro _ h; simp at h
    · intro h
      unfold InvMon at *
      cases hm : s.mon <;> simp only [hm, hd] at h ⊢ <;> first | omega | (simp at h)
  · exact ⟨c, fun _ h => h, fun h => h, rfl, rfl, fun h => h⟩

theorem InvMon.congr {s s' : St} (h : InvMon s) (e1 : s'.jsActive = s.jsActive)
    (e2 : s'.jsDebt = s.jsDebt) (e3 : s'.jsIssued = s.jsIssued) (e4 : s'.mon = s.mon) :
    InvMon s' := by
  unfold InvMon at *
  rw [e4, e1, e2, e3]; exact h

/-- The whole invariant. -/
structure Inv (s : St) : Prop where
  core : Core s
  live : Live 0 s
  stall : Stall s
  mon : InvMon s

/-- After a slot has been released. -/
theorem release_inv {s : St} (c : Core s) (hl : Live 1 s) (ha : s.active < s.max)
    (hm : InvMon s) (k : Nat) : Inv (release s k) := by
  unfold release
  split
  · rename_i hr
    obtain ⟨h1, h2, h3, h4, h5, h6, h7, h8, h9⟩ := notifyReady_spec c k
    exact ⟨h1, h2 hl, h3 hr, hm.congr h6 h7 h8 h9⟩
  · rename_i hr
    have hr0 : s.ready = 0 := Decidable.not_not.mp hr
    have hl0 : Live 0 s := by
      intro h; have := c.rdy; omega
    split
    · split
      · obtain ⟨h1, h2, h3, h4, h5, h6, h7, h8, h9, _⟩ := activateHelper_spec c k (Or.inl ‹_›)
        exact ⟨h1, h2 _ hl0, h3, hm.congr h6 h7 h8 h9⟩
      · obtain ⟨h1, h2, h3, h4, h5, h6, h7, h8, h9, _⟩ := activateHelper_spec c k (Or.inr ‹_›)
        exact ⟨h1, h2 _ hl0, h3, hm.congr h6 h7 h8 h9⟩
      · have hn := activateHelper_no ‹_›
        obtain ⟨h1, h2, h3, h4, h5, h6⟩ := payDebt_spec c ha
        exact ⟨h1, h2 _ hl0, h3 (fun h h' => absurd ⟨h, h'⟩ hn), h6 hm⟩
    · rename_i hq
      obtain ⟨h1, h2, h3, h4, h5, h6⟩ := payDebt_spec c ha
      exact ⟨h1, h2 _ hl0, h3 (fun h h' => absurd h' hq), h6 hm⟩

end Verif.Active
