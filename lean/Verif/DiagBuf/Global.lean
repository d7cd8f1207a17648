import Verif.DiagBuf.Lemmas

/-!
# Diagnostics of commands: the invariant of everything
-/

set_option linter.unusedSimpArgs false

namespace Verif.DiagBuf

/-- What is asked of the commands: a pipe is asked for if fragments are to be written, and,
unless there is a single job, processes don't write to the stream directly. -/
structure Ok (g : Cfg) (cmds : Nat → List Cmd) : Prop where
  own : ∀ j c, c ∈ cmds j → Inherits g c → c.writes = []
  sole : (∃ k, ∀ j, j ≠ k → cmds j = []) ∨ ∀ j c, c ∈ cmds j → ¬ Inherits g c

/-- The pieces and the part of the one that is being written that make up the stream. -/
structure Parts (g : Cfg) (cmds : Nat → List Cmd) (s : St) (ps : List (Id × List Char))
    (p : List Char) : Prop where
  out : s.out = stream ps ++ (match s.lock with
    | none => []
    | some j => tag (s.id j) p)
  past : ∀ j i c, (cmds j)[i]? = some c → i < (s.job j).idx → piecesOf ps (j, i) = pieces g c
  now : ∀ j c, Cur cmds s j c →
    piecesOf ps (s.id j) ++ pend g c p (s.job j).run = pieces g c
  future : ∀ j i, (s.job j).idx < i → piecesOf ps (j, i) = []
  valid : ∀ q ∈ ps, q.1.2 ≤ (s.job q.1.1).idx ∧ q.1.2 < (cmds q.1.1).length
  order : ps.Pairwise (fun a b => a.1.1 = b.1.1 → a.1.2 ≤ b.1.2)

/-- The invariant. -/
structure Glob (g : Cfg) (cmds : Nat → List Cmd) (s : St) : Prop where
  lock : ∀ j, (s.job j).run.pc.Holds ↔ s.lock = some j
  inv : ∀ j c, Cur cmds s j c → Inv g c (s.job j).run
  idle : ∀ j, (cmds j)[(s.job j).idx]? = none → (s.job j).run = idle
  parts : ∃ ps p, Parts g cmds s ps p

theorem piecesOf_append (a b : List (Id × List Char)) (i : Id) :
    piecesOf (a ++ b) i = piecesOf a i ++ piecesOf b i := by
  simp [piecesOf]

theorem piecesOf_single (i k : Id) (t : List Char) :
    piecesOf [(k, t)] i = if k = i then [t] else [] := by
  by_cases h : k = i <;> simp [piecesOf, h]

theorem stream_append (a b : List (Id × List Char)) :
    stream (a ++ b) = stream a ++ stream b := by
  simp [stream]

theorem stream_single (i : Id) (t : List Char) : stream [(i, t)] = tag i t := by
  simp [stream]

theorem tag_append (i : Id) (a b : List Char) : tag i (a ++ b) = tag i a ++ tag i b := by
  simp [tag]

theorem tag_nil (i : Id) : tag i [] = [] := rfl

theorem cur_lt {cmds : Nat → List Cmd} {s : St} {j : Nat} {c : Cmd} (h : Cur cmds s j c) :
    (s.job j).idx < (cmds j).length := by
  obtain ⟨h, -⟩ := List.getElem?_eq_some_iff.1 h
  exact h

theorem cur_mem {cmds : Nat → List Cmd} {s : St} {j : Nat} {c : Cmd} (h : Cur cmds s j c) :
    c ∈ cmds j := List.mem_of_getElem? h

theorem cur_unique {cmds : Nat → List Cmd} {s : St} {j : Nat} {c d : Cmd}
    (h : Cur cmds s j c) (h' : Cur cmds s j d) : d = c := by
  unfold Cur at h h'
  rw [h] at h'
  exact (Option.some.inj h').symm

/-- A change of the execution of a job in which nothing is written and, with the lock
aside, no piece is completed. -/
theorem parts_set {g : Cfg} {cmds : Nat → List Cmd} {s s' : St} {ps : List (Id × List Char)}
    {p p' : List Char} {j : Nat} {c : Cmd} {r : Run} (add : List (List Char))
    (h : Parts g cmds s ps p) (hc : Cur cmds s j c)
    (hj : s'.job = (s.setRun j r).job)
    (ho : s'.out = stream (ps ++ add.map (fun t => (s.id j, t))) ++ (match s'.lock with
      | none => []
      | some j => tag (s.id j) p'))
    (hp : add ++ pend g c p' r = pend g c p (s.job j).run)
    (hothers : p' = p ∨ ∀ i, i ≠ j → ¬ (s.job i).run.pc.Holds) :
    Parts g cmds s' (ps ++ add.map (fun t => (s.id j, t))) p' := by
  have hidx : ∀ i, (s'.job i).idx = (s.job i).idx := by
    intro i
    rw [hj]
    simp only [St.setRun]
    split
    · rename_i e
      rw [e]
    · rfl
  have hof : ∀ k : Id, piecesOf (add.map (fun t => (s.id j, t))) k =
      if s.id j = k then add else [] := by
    intro k
    by_cases hk : s.id j = k
    · rw [if_pos hk]
      subst hk
      simp [piecesOf, List.filter_map, Function.comp_def]
    · rw [if_neg hk]
      simp [piecesOf, hk]
  constructor
  · rw [ho]
    cases s'.lock with
    | none => rfl
    | some i => simp only [St.id, hidx]
  · intro k i d hd hi
    rw [hidx] at hi
    rw [piecesOf_append, h.past k i d hd hi, hof, if_neg]
    · simp
    · intro e
      simp only [St.id, Prod.mk.injEq] at e
      obtain ⟨rfl, rfl⟩ := e
      omega
  · intro k d hd
    unfold Cur at hd
    rw [hidx] at hd
    have hid : s'.id k = s.id k := by simp [St.id, hidx]
    rw [hid, piecesOf_append, hof]
    by_cases hk : k = j
    · subst hk
      have := cur_unique hc hd
      subst this
      rw [if_pos rfl, hj]
      simp only [St.setRun, if_true]
      rw [List.append_assoc, hp]
      exact h.now k d hc
    · rw [if_neg (fun e => hk (by simpa [St.id] using (congrArg Prod.fst e).symm)),
        List.append_nil, hj]
      simp only [St.setRun, if_neg hk]
      have : pend g d p' (s.job k).run = pend g d p (s.job k).run := by
        rcases hothers with e | e
        · rw [e]
        · exact pend_part (e k hk) p' p
      rw [this]
      exact h.now k d hd
  · intro k i hi
    rw [hidx] at hi
    rw [piecesOf_append, h.future k i hi, hof, if_neg]
    · rfl
    · intro e
      simp only [St.id, Prod.mk.injEq] at e
      obtain ⟨rfl, rfl⟩ := e
      omega
  · intro q hq
    rw [hidx]
    rcases List.mem_append.1 hq with hq | hq
    · exact h.valid q hq
    · obtain ⟨t, -, rfl⟩ := List.mem_map.1 hq
      exact ⟨Nat.le_refl _, cur_lt hc⟩
  · rw [List.pairwise_append]
    refine ⟨h.order, ?_, ?_⟩
    · rw [List.pairwise_map]
      exact List.pairwise_of_forall (fun _ _ _ => Nat.le_refl _)
    · intro a ha b hb e
      obtain ⟨t, -, rfl⟩ := List.mem_map.1 hb
      have := (h.valid a ha).1
      simp only [St.id] at e ⊢
      rw [e] at this
      exact this

theorem others {g : Cfg} {cmds : Nat → List Cmd} {s : St} (h : Glob g cmds s) {j : Nat}
    (hl : s.lock = none ∨ s.lock = some j) : ∀ i, i ≠ j → ¬ (s.job i).run.pc.Holds := by
  intro i hi hh
  have := (h.lock i).1 hh
  rcases hl with hl | hl <;> rw [hl] at this
  · simp at this
  · exact hi (Option.some.inj this).symm

theorem setRun_self (s : St) (j : Nat) (r : Run) : ((s.setRun j r).job j).run = r := by
  simp [St.setRun]

theorem setRun_other (s : St) {i j : Nat} (r : Run) (h : i ≠ j) :
    (s.setRun j r).job i = s.job i := by
  simp [St.setRun, h]

theorem setRun_idx (s : St) (i j : Nat) (r : Run) :
    ((s.setRun j r).job i).idx = (s.job i).idx := by
  simp only [St.setRun]
  split
  · rename_i e
    rw [e]
  · rfl

/-- The parts of the invariant that don't mention the stream. -/
theorem glob_set {g : Cfg} {cmds : Nat → List Cmd} {s s' : St} {j : Nat} {c : Cmd} {r : Run}
    (h : Glob g cmds s) (hc : Cur cmds s j c) (hj : s'.job = (s.setRun j r).job)
    (hlock : ∀ i, ((s.setRun j r).job i).run.pc.Holds ↔ s'.lock = some i)
    (hinv : Inv g c r) (hparts : ∃ ps p, Parts g cmds s' ps p) : Glob g cmds s' := by
  refine ⟨?_, ?_, ?_, hparts⟩
  · intro i
    rw [hj]
    exact hlock i
  · intro i d hd
    unfold Cur at hd
    rw [hj, setRun_idx] at hd
    rw [hj]
    by_cases hi : i = j
    · subst hi
      rw [setRun_self, cur_unique hc hd]
      exact hinv
    · rw [setRun_other s r hi]
      exact h.inv i d hd
  · intro i hn
    rw [hj, setRun_idx] at hn
    by_cases hi : i = j
    · subst hi
      unfold Cur at hc
      rw [hc] at hn
      simp at hn
    · rw [hj, setRun_other s r hi]
      exact h.idle i hn

/-- A change after which the lock is as before. -/
theorem lock_same {g : Cfg} {cmds : Nat → List Cmd} {s : St} {j : Nat} {r : Run}
    (h : Glob g cmds s) (hh : r.pc.Holds ↔ (s.job j).run.pc.Holds) :
    ∀ i, ((s.setRun j r).job i).run.pc.Holds ↔ s.lock = some i := by
  intro i
  by_cases hi : i = j
  · subst hi
    rw [setRun_self, hh]
    exact h.lock i
  · rw [setRun_other s r hi]
    exact h.lock i

theorem lock_taken {g : Cfg} {cmds : Nat → List Cmd} {s : St} {j : Nat} {r : Run}
    (h : Glob g cmds s) (hl : s.lock = none) (hh : r.pc.Holds) :
    ∀ i, ((s.setRun j r).job i).run.pc.Holds ↔ some j = some i := by
  intro i
  by_cases hi : i = j
  · subst hi
    rw [setRun_self]
    simp [hh]
  · rw [setRun_other s r hi, h.lock i, hl]
    simp [Ne.symm hi]

theorem lock_freed {g : Cfg} {cmds : Nat → List Cmd} {s : St} {j : Nat} {r : Run}
    (h : Glob g cmds s) (hl : s.lock = some j) (hh : ¬ r.pc.Holds) :
    ∀ i, ((s.setRun j r).job i).run.pc.Holds ↔ none = some i := by
  intro i
  by_cases hi : i = j
  · subst hi
    rw [setRun_self]
    simp [hh]
  · rw [setRun_other s r hi, h.lock i, hl]
    simp [Ne.symm hi]

theorem step_inv {g : Cfg} {cmds : Nat → List Cmd} {s s' : St} (hok : Ok g cmds)
    (h : Glob g cmds s) (t : Step g cmds s s') : Glob g cmds s' := by
  obtain ⟨ps, p, hp⟩ := h.parts
  cases t with
  | @child j c x l hc hpi hl hr =>
    have hi := h.inv j c hc
    refine glob_set h hc rfl (lock_same h Iff.rfl) ?_ ⟨_, p, parts_set [] hp hc rfl ?_ ?_ (.inl rfl)⟩
    · obtain ⟨h1, h2, h3, h4, h5, h6, h7, h8⟩ := hi
      constructor
      · exact h1
      · intro e
        have := (h2 e).1 hpi
        rw [hl] at this
        simp at this
      · intro e
        have := (h3 e).1
        rw [hl] at this
        simp at this
      · exact h4
      · intro e
        rw [hpi] at e
        simp at e
      · exact h6
      · exact h7
      · exact h8
    · simpa [St.setRun] using hp.out
    · generalize (s.job j).run = r at *
      cases hpc : r.pc <;> simp [pend, rest, after, hl, hpi, hpc]
  | @direct j c x l hc hpi hl =>
    have hi := h.inv j c hc
    have hemit : ¬ (s.job j).run.pc.Emits := by
      intro e
      have := (hi.closed (hi.emits hpi e)).1
      rw [hl] at this
      simp at this
    have hhold : ¬ (s.job j).run.pc.Holds := by
      intro e
      cases hpc : (s.job j).run.pc with
      | copying =>
        have := (hi.copying hpc).2.2
        rw [hpi] at this
        simp at this
      | hold w ws k => exact hemit (by rw [hpc]; trivial)
      | _ => simp [hpc, Pc.Holds] at e
    have hlock : s.lock = none := by
      cases hlk : s.lock with
      | none => rfl
      | some i =>
        exfalso
        have hhi := (h.lock i).2 hlk
        rcases hok.sole with ⟨k, hk⟩ | hall
        · have hjk : j = k := by
            by_cases e : j = k
            · exact e
            · have := cur_lt hc
              rw [hk j e] at this
              simp at this
          have hik : i = k := by
            by_cases e : i = k
            · exact e
            · have := h.idle i (by rw [hk i e]; rfl)
              rw [this] at hhi
              simp [idle, Pc.Holds] at hhi
          rw [hik, ← hjk] at hhi
          exact hhold hhi
        · exact hall j c (cur_mem hc) ((piped_iff g c).1 hpi)
    refine glob_set h hc rfl (lock_same h Iff.rfl) ?_
      ⟨_, p, parts_set [[x]] hp hc rfl ?_ ?_ (.inl rfl)⟩
    · obtain ⟨h1, h2, h3, h4, h5, h6, h7, h8⟩ := hi
      constructor
      · exact h1
      · intro e
        exact ⟨fun e' => by rw [hpi] at e'; simp at e', (h2 e).2⟩
      · intro e
        have := (h3 e).1
        rw [hl] at this
        simp at this
      · exact h4
      · exact h5
      · exact h6
      · exact h7
      · exact h8
    · have := hp.out
      rw [hlock] at this
      simp [St.setRun, hlock, this, stream, tag]
    · generalize (s.job j).run = r at *
      cases hpc : r.pc <;> simp_all [pend, rest, Pc.Emits, Pc.Holds]
  | @«local» j c r hc hloc =>
    have hi := h.inv j c hc
    have hh := local_holds hloc
    refine glob_set h hc rfl (lock_same h (by simp [hh])) (local_inv hloc hi)
      ⟨_, p, parts_set [] hp hc rfl ?_ ?_ (.inl rfl)⟩
    · simpa [St.setRun] using hp.out
    · exact local_pend hloc hi p
  | @acquire j c w ws k hc hl hpc =>
    have hi := h.inv j c hc
    refine glob_set h hc rfl (lock_taken h hl trivial) ?_
      ⟨_, [], parts_set [] hp hc rfl ?_ ?_ (.inr (others h (.inl hl)))⟩
    · obtain ⟨h1, h2, h3, h4, h5, h6, h7, h8⟩ := hi
      constructor <;> simp_all [Pc.next, Pc.Emits]
    · have := hp.out
      rw [hl] at this
      simpa [tag_nil, St.setRun] using this
    · simp [pend, hpc, after, rest]
  | @put j c x w ws k hc hpc =>
    have hi := h.inv j c hc
    have hl : s.lock = some j := (h.lock j).1 (by rw [hpc]; trivial)
    refine glob_set h hc rfl (lock_same h (by simp [hpc, Pc.Holds])) ?_
      ⟨_, p ++ [x], parts_set [] hp hc rfl ?_ ?_ (.inr (others h (.inr hl)))⟩
    · obtain ⟨h1, h2, h3, h4, h5, h6, h7, h8⟩ := hi
      constructor <;> simp_all [Pc.next, Pc.Emits]
    · have := hp.out
      rw [hl] at this
      simp only [St.setRun, hl, this]
      simp [tag]
    · simp [pend, hpc, after, rest]
  | @release j c ws k hc hpc =>
    have hi := h.inv j c hc
    have hl : s.lock = some j := (h.lock j).1 (by rw [hpc]; trivial)
    refine glob_set h hc rfl (lock_freed h hl (by simp [Pc.Holds])) ?_
      ⟨_, [], parts_set [p] hp hc rfl ?_ ?_ (.inr (others h (.inr hl)))⟩
    · obtain ⟨h1, h2, h3, h4, h5, h6, h7, h8⟩ := hi
      constructor <;> simp_all [Pc.next, Pc.Emits]
    · have := hp.out
      rw [hl] at this
      simp only [St.setRun, this]
      simp [stream]
    · simp [pend, hpc, after, rest]
  | @copyBegin j c hc hl hpc hpi hs hser hq =>
    have hi := h.inv j c hc
    refine glob_set h hc rfl (lock_taken h hl trivial) ?_
      ⟨_, [], parts_set [] hp hc rfl ?_ ?_ (.inr (others h (.inl hl)))⟩
    · obtain ⟨h1, h2, h3, h4, h5, h6, h7, h8⟩ := hi
      constructor <;> simp_all [Pc.next, Pc.Emits]
    · have := hp.out
      rw [hl] at this
      simpa [tag_nil, St.setRun] using this
    · have ht := hi.todo (by simp [hpc, Pc.next])
      simp [pend, hpc, rest, hpi, hs, hser, ht, nonEmpty, hq]
  | @copyPut j c x q hc hpc hq =>
    have hi := h.inv j c hc
    have hl : s.lock = some j := (h.lock j).1 (by rw [hpc]; trivial)
    refine glob_set h hc rfl (lock_same h (by simp [hpc, Pc.Holds])) ?_
      ⟨_, p ++ [x], parts_set [] hp hc rfl ?_ ?_ (.inr (others h (.inr hl)))⟩
    · obtain ⟨h1, h2, h3, h4, h5, h6, h7, h8⟩ := hi
      constructor <;> simp_all [Pc.next, Pc.Emits]
    · have := hp.out
      rw [hl] at this
      simp only [St.setRun, hl, this]
      simp [tag]
    · simp [pend, hpc, after, rest, hq]
  | @copyEnd j c hc hpc hq hlft =>
    have hi := h.inv j c hc
    have hl : s.lock = some j := (h.lock j).1 (by rw [hpc]; trivial)
    have hcop := hi.copying hpc
    have hln : (s.job j).run.line = [] := by
      by_cases e : (s.job j).run.line = []
      · exact e
      · have := (hi.line e).2
        rw [hcop.1] at this
        simp at this
    refine glob_set h hc rfl (lock_freed h hl (by simp [Pc.Holds])) ?_
      ⟨_, [], parts_set [p] hp hc rfl ?_ ?_ (.inr (others h (.inr hl)))⟩
    · obtain ⟨h1, h2, h3, h4, h5, h6, h7, h8⟩ := hi
      constructor <;> simp_all [Pc.next, Pc.Emits]
    · have := hp.out
      rw [hl] at this
      simp only [St.setRun, this]
      simp [stream]
    · have ht := hi.todo (by simp [hpc, Pc.next])
      simp [pend, hpc, after, rest, hq, hlft, hcop, ht, nonEmpty_nil]
  | @next j c hc hpc =>
    have hi := h.inv j c hc
    have hother : ∀ i, i ≠ j → (if i = j then (⟨(s.job j).idx + 1,
        load (cmds j) ((s.job j).idx + 1)⟩ : Job) else s.job i) = s.job i :=
      fun i hij => if_neg hij
    have hload : ∀ i, ¬ (load (cmds j) i).pc.Holds := by
      intro i
      unfold load
      split <;> simp [start, idle, Pc.Holds]
    have hnl : s.lock ≠ some j := fun e => by
      have := (h.lock j).2 e
      simp [hpc, Pc.Holds] at this
    refine ⟨?_, ?_, ?_, ps, p, ?_, ?_, ?_, ?_, ?_, hp.order⟩
    · intro i
      by_cases hij : i = j
      · subst hij
        simp only [if_true]
        simp [hload, hnl]
      · simp only [hother i hij]
        exact h.lock i
    · intro i d hd
      by_cases hij : i = j
      · subst hij
        simp only [Cur, if_true] at hd
        simp only [if_true, load, hd]
        exact inv_start (hok.own i d (List.mem_of_getElem? hd))
      · simp only [Cur, hother i hij] at hd
        simp only [hother i hij]
        exact h.inv i d hd
    · intro i hn
      by_cases hij : i = j
      · subst hij
        simp only [if_true] at hn
        simp [load, hn]
      · simp only [hother i hij] at hn
        simp only [hother i hij]
        exact h.idle i hn
    · rw [hp.out]
      cases hlk : s.lock with
      | none => rfl
      | some i =>
        have hij : i ≠ j := fun e => hnl (by rw [hlk, e])
        simp only [St.id, hother i hij]
    · intro i k d hd hk
      by_cases hij : i = j
      · subst hij
        simp only [if_true] at hk
        by_cases hke : k = (s.job i).idx
        · subst hke
          have := hp.now i c hc
          rw [cur_unique hc hd]
          simpa [pend, hpc, after, St.id] using this
        · exact hp.past i k d hd (by omega)
      · simp only [hother i hij] at hk
        exact hp.past i k d hd hk
    · intro i d hd
      by_cases hij : i = j
      · subst hij
        simp only [Cur, if_true] at hd
        simp only [St.id, if_true, load, hd]
        rw [hp.future i _ (Nat.lt_succ_self _), pend_start]
        rfl
      · simp only [Cur, hother i hij] at hd
        simp only [St.id, hother i hij]
        exact hp.now i d hd
    · intro i k hk
      by_cases hij : i = j
      · subst hij
        simp only [if_true] at hk
        exact hp.future i k (by omega)
      · simp only [hother i hij] at hk
        exact hp.future i k hk
    · intro q hq
      have hv := hp.valid q hq
      by_cases hij : q.1.1 = j
      · simp only [hij, if_true]
        rw [hij] at hv
        exact ⟨by omega, hv.2⟩
      · simp only [hother _ hij]
        exact hv

theorem init_inv {g : Cfg} {cmds : Nat → List Cmd} (hok : Ok g cmds) :
    Glob g cmds (init cmds) := by
  have hload : ∀ j i, ¬ (load (cmds j) i).pc.Holds := by
    intro j i
    unfold load
    split <;> simp [start, idle, Pc.Holds]
  refine ⟨?_, ?_, ?_, [], [], ?_, ?_, ?_, ?_, ?_, List.Pairwise.nil⟩
  · intro j
    simp [init, hload]
  · intro j d hd
    simp only [Cur, init] at hd
    simp only [init, load, hd]
    exact inv_start (hok.own j d (List.mem_of_getElem? hd))
  · intro j hn
    simp only [init] at hn
    simp [init, load, hn]
  · rfl
  · intro j i c _ hi
    simp [init] at hi
  · intro j d hd
    simp only [Cur, init] at hd
    simp only [init, load, hd, pend_start]
    rfl
  · intro j i _
    rfl
  · intro q hq
    simp at hq

theorem reach_inv {g : Cfg} {cmds : Nat → List Cmd} (hok : Ok g cmds) {s : St}
    (h : Reach g cmds s) : Glob g cmds s := by
  induction h with
  | init => exact init_inv hok
  | step _ t ih => exact step_inv hok ih t

end Verif.DiagBuf
