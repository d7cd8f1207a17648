import Verif.DiagBuf.Global

/-!
# Diagnostics of commands: properties
-/

set_option linter.unusedSimpArgs false

namespace Verif.DiagBuf

/-- All the commands have been executed. -/
def Finished (cmds : Nat → List Cmd) (s : St) : Prop := ∀ j, (cmds j).length ≤ (s.job j).idx

/-! ## Pieces -/

theorem piecesOf_mem {ps : List (Id × List Char)} {q : Id × List Char} (h : q ∈ ps) :
    q.2 ∈ piecesOf ps q.1 :=
  List.mem_map.2 ⟨q, List.mem_filter.2 ⟨h, by simp⟩, rfl⟩

/-- **C75a.** At any time the stream consists of pieces of commands, those of a command in
order and none of them omitted, and a part of one more, the next one of its command. -/
theorem in_pieces {g : Cfg} {cmds : Nat → List Cmd} (hok : Ok g cmds) {s : St}
    (h : Reach g cmds s) :
    ∃ ps i p, s.out = stream ps ++ tag i p ∧
      (∀ q ∈ ps, ∃ c, (cmds q.1.1)[q.1.2]? = some c) ∧
      (∀ j n c, (cmds j)[n]? = some c → ∃ t, pieces g c = piecesOf ps (j, n) ++ t) ∧
      (p ≠ [] → ∃ c w t, (cmds i.1)[i.2]? = some c ∧
        pieces g c = piecesOf ps i ++ (p ++ w) :: t) := by
  have hg := reach_inv hok h
  obtain ⟨ps, p, hp⟩ := hg.parts
  have hvalid : ∀ q ∈ ps, ∃ c, (cmds q.1.1)[q.1.2]? = some c := fun q hq =>
    ⟨_, List.getElem?_eq_getElem (hp.valid q hq).2⟩
  have hpre : ∀ j n c, (cmds j)[n]? = some c → ∃ t, pieces g c = piecesOf ps (j, n) ++ t := by
    intro j n c hc
    rcases Nat.lt_trichotomy n (s.job j).idx with e | e | e
    · exact ⟨[], by rw [hp.past j n c hc e, List.append_nil]⟩
    · subst e
      exact ⟨_, (hp.now j c hc).symm⟩
    · exact ⟨pieces g c, by rw [hp.future j n e, List.nil_append]⟩
  cases hl : s.lock with
  | none =>
    refine ⟨ps, (0, 0), [], ?_, hvalid, hpre, fun e => absurd rfl e⟩
    have := hp.out
    rw [hl] at this
    simpa [tag_nil] using this
  | some j =>
    refine ⟨ps, s.id j, p, ?_, hvalid, hpre, fun _ => ?_⟩
    · have := hp.out
      rw [hl] at this
      exact this
    · have hh := (hg.lock j).2 hl
      cases hc : (cmds j)[(s.job j).idx]? with
      | none =>
        rw [hg.idle j hc] at hh
        simp [idle, Pc.Holds] at hh
      | some c =>
        have hn := hp.now j c hc
        cases hpc : (s.job j).run.pc with
        | copying =>
          exact ⟨c, _, _, hc, by rw [← hn]; simp [pend, hpc]; exact ⟨rfl, rfl⟩⟩
        | hold w ws k =>
          exact ⟨c, _, _, hc, by rw [← hn]; simp [pend, hpc]; exact ⟨rfl, rfl⟩⟩
        | _ => simp [hpc, Pc.Holds] at hh

/-- **C75b.** In the end the stream consists of exactly the pieces of the commands, those
of a command and those of the commands of a job in order. -/
theorem all_pieces {g : Cfg} {cmds : Nat → List Cmd} (hok : Ok g cmds) {s : St}
    (h : Reach g cmds s) (hf : Finished cmds s) :
    ∃ ps, s.out = stream ps ∧
      (∀ q ∈ ps, ∃ c, (cmds q.1.1)[q.1.2]? = some c) ∧
      (∀ j n c, (cmds j)[n]? = some c → piecesOf ps (j, n) = pieces g c) ∧
      ps.Pairwise (fun a b => a.1.1 = b.1.1 → a.1.2 ≤ b.1.2) := by
  have hg := reach_inv hok h
  obtain ⟨ps, p, hp⟩ := hg.parts
  refine ⟨ps, ?_, fun q hq => ⟨_, List.getElem?_eq_getElem (hp.valid q hq).2⟩, ?_, hp.order⟩
  · have := hp.out
    cases hl : s.lock with
    | none =>
      rw [hl] at this
      simpa using this
    | some j =>
      have hh := (hg.lock j).2 hl
      rw [hg.idle j (List.getElem?_eq_none (hf j))] at hh
      simp [idle, Pc.Holds] at hh
  · intro j n c hc
    have hlt : n < (cmds j).length := (List.getElem?_eq_some_iff.1 hc).1
    exact hp.past j n c hc (Nat.lt_of_lt_of_le hlt (hf j))

/-! ## Buffering -/

theorem single_piece {ps : List (Id × List Char)} {i : Id} {t : List Char}
    (h : piecesOf ps i = [t]) :
    ∃ a b, ps = a ++ (i, t) :: b ∧ (∀ q ∈ a, q.1 ≠ i) ∧ (∀ q ∈ b, q.1 ≠ i) := by
  induction ps with
  | nil => simp [piecesOf] at h
  | cons q ps ih =>
    by_cases hq : q.1 = i
    · have h' : q.2 :: piecesOf ps i = [t] := by
        simpa [piecesOf, List.filter_cons, hq] using h
      simp only [List.cons.injEq] at h'
      refine ⟨[], ps, by rw [← h'.1, ← hq]; rfl, by simp, fun x hx e => ?_⟩
      have := piecesOf_mem hx
      rw [e, h'.2] at this
      simp at this
    · have h' : piecesOf ps i = [t] := by
        simpa [piecesOf, List.filter_cons, hq] using h
      obtain ⟨a, b, rfl, ha, hb⟩ := ih h'
      refine ⟨q :: a, b, rfl, ?_, hb⟩
      intro x hx
      rcases List.mem_cons.1 hx with rfl | hx
      · exact hq
      · exact ha x hx

theorem stream_ids {ps : List (Id × List Char)} {i : Id} (h : ∀ q ∈ ps, q.1 ≠ i) :
    ∀ x ∈ stream ps, x.1 ≠ i := by
  intro x hx
  simp only [stream, List.mem_flatMap, tag, List.mem_map] at hx
  obtain ⟨q, hq, y, -, rfl⟩ := hx
  exact h q hq

theorem ok_buffered {g : Cfg} {cmds : Nat → List Cmd} (hs : g.serial = false)
    (hb : g.noDiagBuffer = false) : Ok g cmds :=
  ⟨fun _ _ _ hi => by simp [Inherits, hs, hb] at hi,
    .inr (fun _ _ _ hi => by simp [Inherits, hs, hb] at hi)⟩

/-- **C75c.** In a parallel build all the diagnostics of a command, together with the
report of its unsuccessful exit, is contiguous in the stream, complete and there once:
whatever the schedule and however it arrives. -/
theorem contiguous {g : Cfg} {cmds : Nat → List Cmd} (hs : g.serial = false)
    (hb : g.noDiagBuffer = false) {s : St} (h : Reach g cmds s) (hf : Finished cmds s)
    {j n : Nat} {c : Cmd} (hc : (cmds j)[n]? = some c) :
    ∃ a b, s.out = a ++ tag (j, n) (text c) ++ b ∧ ∀ x ∈ a ++ b, x.1 ≠ (j, n) := by
  obtain ⟨ps, ho, -, hp, -⟩ := all_pieces (ok_buffered hs hb) h hf
  have hpc := hp j n c hc
  have hpi : pieces g c = nonEmpty (text c) := by
    simp [pieces, Inherits, Streams, hs, hb]
  rw [hpi] at hpc
  by_cases ht : text c = []
  · rw [ht, nonEmpty_nil] at hpc
    refine ⟨s.out, [], by simp [ht, tag], ?_⟩
    rw [List.append_nil, ho]
    refine stream_ids (fun q hq e => ?_)
    have := piecesOf_mem hq
    rw [e, hpc] at this
    simp at this
  · rw [nonEmpty_of_ne ht] at hpc
    obtain ⟨a, b, rfl, ha, hb⟩ := single_piece hpc
    refine ⟨stream a, stream b, ?_, ?_⟩
    · rw [ho]
      simp [stream]
    · intro x hx
      rcases List.mem_append.1 hx with hx | hx
      · exact stream_ids ha x hx
      · exact stream_ids hb x hx

/-- Before that as well: nothing of a command is in the stream, or all of it, or it is the
last in the stream and being written. -/
theorem contiguous_always {g : Cfg} {cmds : Nat → List Cmd} (hs : g.serial = false)
    (hb : g.noDiagBuffer = false) {s : St} (h : Reach g cmds s)
    {j n : Nat} {c : Cmd} (hc : (cmds j)[n]? = some c) :
    (∃ a b, s.out = a ++ tag (j, n) (text c) ++ b ∧ ∀ x ∈ a ++ b, x.1 ≠ (j, n)) ∨
    (∃ a p w, s.out = a ++ tag (j, n) p ∧ text c = p ++ w ∧ ∀ x ∈ a, x.1 ≠ (j, n)) := by
  obtain ⟨ps, i, p, ho, -, hp, hpart⟩ := in_pieces (ok_buffered hs hb) h
  have hpi : ∀ d, pieces g d = nonEmpty (text d) := by
    intro d
    simp [pieces, Inherits, Streams, hs, hb]
  obtain ⟨t, ht⟩ := hp j n c hc
  rw [hpi] at ht
  have hp' : p = [] ∨ i ≠ (j, n) ∨ (i = (j, n) ∧ piecesOf ps (j, n) = [] ∧
      ∃ w, text c = p ++ w) := by
    by_cases e : p = []
    · exact .inl e
    · by_cases e' : i = (j, n)
      · subst e'
        obtain ⟨d, w, t', hd, hw⟩ := hpart e
        rw [hc] at hd
        cases hd
        rw [hpi] at hw
        unfold nonEmpty at hw
        split at hw
        · simp at hw
        · cases hq : piecesOf ps (j, n) with
          | nil =>
            rw [hq] at hw
            simp only [List.nil_append, List.cons.injEq] at hw
            exact .inr (.inr ⟨rfl, rfl, w, hw.1⟩)
          | cons y ys =>
            rw [hq] at hw
            simp at hw
      · exact .inr (.inl e')
  have hnone : piecesOf ps (j, n) = [] → ∀ x ∈ stream ps, x.1 ≠ (j, n) := by
    intro e
    refine stream_ids (fun q hq e' => ?_)
    have := piecesOf_mem hq
    rw [e', e] at this
    simp at this
  have htag : ∀ x ∈ tag i p, x.1 = i := by
    intro x hx
    simp only [tag, List.mem_map] at hx
    obtain ⟨y, -, rfl⟩ := hx
    rfl
  cases hq : piecesOf ps (j, n) with
  | nil =>
    right
    rcases hp' with e | e | ⟨e1, -, w, e3⟩
    · exact ⟨stream ps, [], text c, by rw [ho, e]; simp [tag], by simp, hnone hq⟩
    · refine ⟨s.out, [], text c, by simp [tag], by simp, ?_⟩
      intro x hx
      rw [ho] at hx
      rcases List.mem_append.1 hx with hx | hx
      · exact hnone hq x hx
      · rw [htag x hx]
        exact e
    · subst e1
      exact ⟨stream ps, p, w, ho, e3, hnone hq⟩
  | cons y ys =>
    left
    rw [hq] at ht
    have hy : piecesOf ps (j, n) = [text c] := by
      unfold nonEmpty at ht
      split at ht
      · simp at ht
      · rw [hq]
        simp only [List.cons_append, List.cons.injEq] at ht
        have := ht.2
        have hn : ys = [] := by
          cases ys with
          | nil => rfl
          | cons _ _ => simp at this
        rw [ht.1, hn]
    obtain ⟨a, b, rfl, ha, hb⟩ := single_piece hy
    refine ⟨stream a, stream b ++ tag i p, ?_, ?_⟩
    · rw [ho]
      simp [stream]
    · intro x hx
      simp only [List.mem_append] at hx
      rcases hx with hx | hx | hx
      · exact stream_ids ha x hx
      · exact stream_ids hb x hx
      · rw [htag x hx]
        rcases hp' with e | e | ⟨-, e2, -⟩
        · rw [e] at hx
          simp [tag] at hx
        · exact e
        · rw [hy] at e2
          simp at e2

/-! ## Serial execution -/

/-- Pieces in the order of commands are those of one command after the other. -/
theorem sorted_pieces (ps : List (Id × List Char)) (j n : Nat)
    (hj : ∀ q ∈ ps, q.1.1 = j ∧ q.1.2 < n)
    (ho : ps.Pairwise (fun a b => a.1.1 = b.1.1 → a.1.2 ≤ b.1.2)) :
    ps.map (·.2) = (List.range n).flatMap (fun i => piecesOf ps (j, i)) := by
  induction n generalizing ps with
  | zero =>
    cases ps with
    | nil => rfl
    | cons q ps => exact absurd (hj q (by simp)).2 (by omega)
  | succ n ih =>
    -- The pieces before those of the last command, then those.
    have split : ∀ l : List (Id × List Char), (∀ q ∈ l, q.1.1 = j ∧ q.1.2 < n + 1) →
        l.Pairwise (fun a b => a.1.1 = b.1.1 → a.1.2 ≤ b.1.2) →
        l = l.filter (fun q => q.1.2 < n) ++ l.filter (fun q => q.1 = (j, n)) := by
      intro l
      induction l with
      | nil => intros; rfl
      | cons q l ihl =>
        intro h1 h2
        have h1' := fun x hx => h1 x (List.mem_cons_of_mem _ hx)
        rw [List.pairwise_cons] at h2
        have hq := h1 q (by simp)
        by_cases hlt : q.1.2 < n
        · have hne : q.1 ≠ (j, n) := by
            intro e
            rw [e] at hlt
            exact absurd hlt (by simp)
          simp only [List.filter_cons, hlt, hne, decide_true, if_true, decide_false,
            List.cons_append]
          simp only [Bool.false_eq_true, if_false]
          exact congrArg _ (ihl h1' h2.2)
        · have he : q.1 = (j, n) := by
            apply Prod.ext
            · exact hq.1
            · show q.1.2 = n
              omega
          have hall : ∀ x ∈ l, x.1 = (j, n) := by
            intro x hx
            have := h2.1 x hx (by rw [hq.1, (h1' x hx).1])
            have := (h1' x hx).2
            apply Prod.ext
            · exact (h1' x hx).1
            · show x.1.2 = n
              omega
          have e1 : l.filter (fun q => q.1.2 < n) = [] := by
            rw [List.filter_eq_nil_iff]
            intro x hx
            simp [hall x hx]
          have e2 : l.filter (fun q => q.1 = (j, n)) = l := by
            rw [List.filter_eq_self]
            intro x hx
            simp [hall x hx]
          simp only [List.filter_cons, hlt, he, decide_true, if_true, decide_false, e1, e2]
          simp
    have hs := split ps hj ho
    have ih' := ih (ps.filter (fun q => q.1.2 < n))
      (fun q hq => by
        have := List.mem_filter.1 hq
        exact ⟨(hj q this.1).1, by simpa using this.2⟩)
      (ho.filter _)
    rw [List.range_succ, List.flatMap_append]
    have e : (List.range n).flatMap (fun i => piecesOf ps (j, i)) =
        (List.range n).flatMap (fun i =>
          piecesOf (ps.filter (fun q => q.1.2 < n)) (j, i)) := by
      rw [List.flatMap_def, List.flatMap_def]
      congr 1
      apply List.map_congr_left
      intro i hi
      have hi := List.mem_range.1 hi
      unfold piecesOf
      rw [List.filter_filter]
      congr 1
      apply List.filter_congr
      intro q _
      by_cases hq : q.1 = (j, i) <;> simp [hq, hi]
    rw [e, ← ih']
    have e' : [n].flatMap (fun i => piecesOf ps (j, i)) = piecesOf ps (j, n) := by simp
    rw [e']
    unfold piecesOf
    rw [← List.map_append, ← hs]

theorem flatten_nonEmpty (t : List Char) : (nonEmpty t).flatten = t := by
  unfold nonEmpty
  split
  · rename_i h
    simp [h]
  · simp

theorem flatten_single (t : List Char) : (t.map (fun x => [x])).flatten = t := by
  induction t with
  | nil => rfl
  | cons x t ih => simp [ih]

theorem pieces_serial {g : Cfg} {c : Cmd} (hs : g.serial = true)
    (ho : Inherits g c → c.writes = []) : (pieces g c).flatten = text c := by
  unfold pieces
  by_cases h1 : Inherits g c
  · rw [if_pos h1]
    simp [text, ho h1, flatten_nonEmpty, flatten_single]
  · rw [if_neg h1]
    by_cases h2 : Streams g c
    · rw [if_pos h2]
      simp [text, hs, flatten_nonEmpty, List.flatMap]
    · rw [if_neg h2, flatten_nonEmpty]

/-- **C75d.** In a serial build the stream is the diagnostics of the commands, one after the
other, whether it is passed on by the build system or not. -/
theorem serial_order {g : Cfg} {cmds : Nat → List Cmd} (hs : g.serial = true) {k : Nat}
    (hk : ∀ j, j ≠ k → cmds j = []) (hw : ∀ c ∈ cmds k, Inherits g c → c.writes = [])
    {s : St} (h : Reach g cmds s) (hf : Finished cmds s) :
    s.out.map (·.2) = (cmds k).flatMap text := by
  have hok : Ok g cmds := ⟨fun j c hc => by
    by_cases e : j = k
    · subst e
      exact hw c hc
    · rw [hk j e] at hc
      simp at hc, .inl ⟨k, hk⟩⟩
  obtain ⟨ps, ho, hv, hp, hord⟩ := all_pieces hok h hf
  have hj : ∀ q ∈ ps, q.1.1 = k ∧ q.1.2 < (cmds k).length := by
    intro q hq
    obtain ⟨c, hc⟩ := hv q hq
    by_cases e : q.1.1 = k
    · rw [e] at hc
      exact ⟨e, (List.getElem?_eq_some_iff.1 hc).1⟩
    · rw [hk _ e] at hc
      simp at hc
  have hsort := sorted_pieces ps k (cmds k).length hj hord
  have e1 : s.out.map (·.2) = (ps.map (·.2)).flatten := by
    rw [ho]
    clear ho hv hp hord hj hsort
    induction ps with
    | nil => rfl
    | cons q ps ih =>
      have : stream (q :: ps) = tag q.1 q.2 ++ stream ps := rfl
      rw [this, List.map_append, ih]
      simp [tag, Function.comp_def]
  rw [e1, hsort]
  have hown := hok.own k
  have e2 : ∀ (cs : List Cmd) (m : Nat),
      (∀ i c, cs[i]? = some c → piecesOf ps (k, m + i) = pieces g c ∧
        (Inherits g c → c.writes = [])) →
      ((List.range' m cs.length).flatMap (fun i => piecesOf ps (k, i))).flatten =
        cs.flatMap text := by
    intro cs
    induction cs with
    | nil => intros; rfl
    | cons c cs ih =>
      intro m hm
      have h0 := hm 0 c rfl
      simp only [List.length_cons, List.range'_succ, List.flatMap_cons, List.flatten_append]
      rw [ih (m + 1) (fun i d hd => by
        have := hm (i + 1) d hd
        rw [Nat.add_assoc, Nat.add_comm 1 i]
        exact this)]
      have h0' := h0.1
      simp only [Nat.add_zero] at h0'
      rw [h0', pieces_serial hs h0.2]
  rw [List.range_eq_range']
  exact e2 (cmds k) 0 (fun i c hc => ⟨by rw [Nat.zero_add]; exact hp k i c hc,
    hown c (List.mem_of_getElem? hc)⟩)

/-! ## Without buffering -/

/-- Lines are lines: each has a newline at its end and nowhere else. -/
theorem lines_end {t l : List Char} (h : l ∈ lines t) : ∃ b, l = b ++ ['\n'] ∧ '\n' ∉ b := by
  have key : ∀ (t a l : List Char), '\n' ∉ a → l ∈ linesFrom a t →
      ∃ b, l = b ++ ['\n'] ∧ '\n' ∉ b := by
    intro t
    induction t with
    | nil =>
      intro a l ha hl
      cases a with
      | nil => simp [linesFrom] at hl
      | cons x a =>
        rw [linesFrom_end (by simp)] at hl
        exact ⟨x :: a, by simpa using hl, ha⟩
    | cons x t ih =>
      intro a l ha hl
      by_cases hx : x = '\n'
      · subst hx
        rw [linesFrom_nl] at hl
        rcases List.mem_cons.1 hl with rfl | hl
        · exact ⟨a, rfl, ha⟩
        · exact ih [] l (by simp) hl
      · rw [linesFrom_char _ _ hx] at hl
        exact ih _ l (by simp [ha, Ne.symm hx]) hl
  exact key t [] l (by simp) h

/-- Together they are the text, except that the last one is completed with a newline. -/
theorem lines_text (t : List Char) :
    (lines t).flatten = if t = [] ∨ t.getLast? = some '\n' then t else t ++ ['\n'] := by
  have key : ∀ (t a : List Char), a.getLast? ≠ some '\n' → (linesFrom a t).flatten =
      if a ++ t = [] ∨ (a ++ t).getLast? = some '\n' then a ++ t else a ++ t ++ ['\n'] := by
    intro t
    induction t with
    | nil =>
      intro a ha
      cases a with
      | nil => simp [linesFrom]
      | cons x a =>
        rw [linesFrom_end (by simp)]
        simp only [List.append_nil, List.flatten_cons, List.flatten_nil]
        rw [if_neg]
        rintro (h | h)
        · simp at h
        · exact ha h
    | cons x t ih =>
      intro a ha
      by_cases hx : x = '\n'
      · subst hx
        rw [linesFrom_nl, List.flatten_cons, ih [] (by simp)]
        cases t with
        | nil => simp
        | cons y t => simp [List.getLast?_append, List.getLast?_cons_cons]; split <;> simp
      · rw [linesFrom_char _ _ hx, ih (a ++ [x]) (by simp [hx])]
        simp
  have := key t [] (by simp)
  simpa [lines] using this

/-- **C75e.** In a parallel build without buffering (and with pipes) what a process writes
gets into the stream by line: the pieces are fragments, lines of the process, and the
report of its exit. -/
theorem by_line {g : Cfg} {cmds : Nat → List Cmd} (hs : g.serial = false)
    (hb : g.noDiagBuffer = true)
    (hp : ∀ j c, c ∈ cmds j → c.forcePipe = true ∧ c.forceBuffer = false) {s : St}
    (h : Reach g cmds s) (hf : Finished cmds s) :
    ∃ ps, s.out = stream ps ∧
      (∀ q ∈ ps, ∃ c, (cmds q.1.1)[q.1.2]? = some c) ∧
      ∀ j n c, (cmds j)[n]? = some c → piecesOf ps (j, n) =
        c.writes.map fragment ++ lines c.child ++ nonEmpty (recordText c) := by
  have hni : ∀ j c, c ∈ cmds j → ¬ Inherits g c := by
    intro j c hc hi
    have := (hp j c hc).1
    rw [hi.2] at this
    simp at this
  obtain ⟨ps, ho, hv, hpp, -⟩ := all_pieces
    (⟨fun j c hc hi => absurd hi (hni j c hc), .inr hni⟩ : Ok g cmds) h hf
  refine ⟨ps, ho, hv, fun j n c hc => ?_⟩
  have hm := List.mem_of_getElem? hc
  rw [hpp j n c hc]
  unfold pieces
  rw [if_neg (hni j c hm), if_pos ⟨.inr hb, (hp j c hm).2⟩]
  simp [hs]

/-! ## Assertions and progress -/

/-- **C75f.** The buffer is empty whenever diagnostics is streamed, and there is nothing
more to read when it is closed. -/
theorem asserts {g : Cfg} {cmds : Nat → List Cmd} (hok : Ok g cmds) {s : St}
    (h : Reach g cmds s) {j : Nat} {c : Cmd} (hc : Cur cmds s j c) :
    (Streams g c → (s.job j).run.buf = []) ∧
    ((s.job j).run.pc = .eof → ¬ Inherits g c →
      (s.job j).run.pipe = [] ∧ (s.job j).run.left = []) := by
  have hi := (reach_inv hok h).inv j c hc
  refine ⟨fun hs => hi.stream ((streaming_iff g c).2 hs), fun hp hn => ?_⟩
  refine (hi.ended (.inl (by rw [hp]; rfl))).1 ?_
  rcases piped_cases g c with e | e
  · exact e
  · exact absurd ((piped_iff g c).1 e) hn

/-- **C75g.** Something can always be done until everything has been executed: nobody waits
forever, neither for the lock, nor for a process that waits for its pipe to be read. -/
theorem progress {g : Cfg} {cmds : Nat → List Cmd} (hok : Ok g cmds) (hcap : 0 < g.cap)
    {s : St} (h : Reach g cmds s) (hf : ¬ Finished cmds s) : ∃ s', Step g cmds s s' := by
  have hg := reach_inv hok h
  cases hl : s.lock with
  | some j =>
    have hh := (hg.lock j).2 hl
    cases hc : (cmds j)[(s.job j).idx]? with
    | none =>
      rw [hg.idle j hc] at hh
      simp [idle, Pc.Holds] at hh
    | some c =>
      have hi := hg.inv j c hc
      cases hpc : (s.job j).run.pc with
      | copying =>
        cases hq : (s.job j).run.pipe with
        | cons x p => exact ⟨_, .copyPut hc hpc hq⟩
        | nil =>
          cases hlft : (s.job j).run.left with
          | nil => exact ⟨_, .copyEnd hc hpc hq hlft⟩
          | cons x l =>
            exact ⟨_, .child hc (hi.copying hpc).2.2 hlft (by rw [hq]; exact hcap)⟩
      | hold w ws k =>
        cases w with
        | nil => exact ⟨_, .release hc hpc⟩
        | cons x w => exact ⟨_, .put hc hpc⟩
      | _ => simp [hpc, Pc.Holds] at hh
  | none =>
    have : ∃ j, (s.job j).idx < (cmds j).length := by
      by_cases e : ∃ j, (s.job j).idx < (cmds j).length
      · exact e
      · exact absurd (fun j => Nat.le_of_not_lt (fun hlt => e ⟨j, hlt⟩)) hf
    obtain ⟨j, hj⟩ := this
    have hc : Cur cmds s j (cmds j)[(s.job j).idx] := List.getElem?_eq_getElem hj
    generalize (cmds j)[(s.job j).idx] = c at hc
    have hi := hg.inv j c hc
    cases hpc : (s.job j).run.pc with
    | opened =>
      cases ht : (s.job j).run.todo with
      | nil => exact ⟨_, .local hc (.call hpc ht)⟩
      | cons w t => exact ⟨_, .local hc (.write hpc ht)⟩
    | reading =>
      rcases piped_cases g c with hpi | hpi
      · cases hq : (s.job j).run.pipe with
        | nil =>
          cases hlft : (s.job j).run.left with
          | nil => exact ⟨_, .local hc (.last hpc hpi hq hlft)⟩
          | cons x l => exact ⟨_, .child hc hpi hlft (by rw [hq]; exact hcap)⟩
        | cons x p =>
          cases hs : streaming g c with
          | false =>
            exact ⟨_, .local hc (.copy (p := x :: p) (q := []) hpc hpi hs (by simp [hq])
              (by simp))⟩
          | true =>
            cases hser : g.serial with
            | false => exact ⟨_, .local hc (.char hpc hpi hs hser hq)⟩
            | true => exact ⟨_, .copyBegin hc hl hpc hpi hs hser (by simp [hq])⟩
      · exact ⟨_, .local hc (.none hpc hpi)⟩
    | copying =>
      have := (hg.lock j).1 (by rw [hpc]; trivial)
      rw [hl] at this
      simp at this
    | eof =>
      cases hlft : (s.job j).run.left with
      | nil => exact ⟨_, .local hc (.close hpc hlft)⟩
      | cons x l =>
        rcases piped_cases g c with hpi | hpi
        · have := ((hi.ended (.inl (by rw [hpc]; rfl))).1 hpi).2
          rw [hlft] at this
          simp at this
        · exact ⟨_, .direct hc hpi hlft⟩
    | emit ws k =>
      cases ws with
      | cons w ws => exact ⟨_, .acquire hc hl hpc⟩
      | nil =>
        by_cases hk : k = .closed
        · subst hk
          exact ⟨_, .next hc hpc⟩
        · exact ⟨_, .local hc (.goOn hpc hk)⟩
    | hold w ws k =>
      have := (hg.lock j).1 (by rw [hpc]; trivial)
      rw [hl] at this
      simp at this

/-! ## Termination -/

/-- What is left to do after the pieces that are being written. -/
def base (c : Cmd) : Next → Nat
  | .closed => 0
  | .eof => 2 * (recordText c).length + 10
  | .reading => 2 * (recordText c).length + 12
  | .opened => 2 * (recordText c).length + 13

/-- What is left to do for pieces. -/
def weigh : List (List Char) → Nat
  | [] => 0
  | w :: ws => 2 * w.length + 3 + weigh ws

/-- What is left to do at the position. -/
def Pc.weight (c : Cmd) : Pc → Nat
  | .opened => base c .opened
  | .reading => base c .reading
  | .copying => base c .eof + 1
  | .eof => base c .eof
  | .emit ws k => weigh ws + base c k + 1
  | .hold w ws k => 2 * w.length + 2 + weigh ws + base c k + 1

/-- What is left to do for fragments. -/
def weighTodo : List (List Char × Bool) → Nat
  | [] => 0
  | w :: ws => 10 * (fragment w).length + 20 + weighTodo ws

/-- What is left to do for a command. -/
def weight (c : Cmd) (r : Run) : Nat :=
  30 * r.left.length + 20 * r.pipe.length + 10 * r.line.length + 10 * r.buf.length +
    weighTodo r.todo + r.pc.weight c

theorem closing_weigh (c : Cmd) (buf : List Char) :
    weigh (closing c buf) ≤ 2 * buf.length + 2 * (recordText c).length + 3 := by
  rw [closing_eq]
  unfold nonEmpty
  split
  · simp [weigh]
  · simp [weigh]
    omega

theorem local_weight {g : Cfg} {c : Cmd} {r r' : Run} (h : Local g c r r') :
    weight c r' < weight c r := by
  cases h with
  | @write w t hp ht =>
    unfold write
    split
    · simp only [weight, hp, ht, Pc.weight, weigh, weighTodo, fragment]
      simp
      omega
    · simp only [weight, hp, ht, Pc.weight, weighTodo, fragment]
      simp
      omega
  | call hp ht =>
    simp only [weight, hp, Pc.weight, base]
    omega
  | none hp hn =>
    simp only [weight, hp, Pc.weight, base]
    omega
  | @copy p q hp hpi hs hq hn =>
    have : 0 < p.length := List.length_pos_iff.2 hn
    simp only [weight, hp, hq, List.length_append]
    omega
  | @char x p hp hpi hs hser hq =>
    unfold readChar
    split
    · simp only [weight, hp, hq, Pc.weight, weigh]
      simp
      omega
    · simp only [weight, hp, hq]
      simp
      omega
  | last hp hpi hq hl =>
    unfold readEnd
    split
    · simp only [weight, hp, Pc.weight, base]
      omega
    · rename_i hn
      have : 0 < r.line.length := List.length_pos_iff.2 hn
      simp only [weight, hp, Pc.weight, weigh, base]
      simp
      omega
  | close hp hl =>
    have := closing_weigh c r.buf
    simp only [weight, hp, Pc.weight, base]
    simp
    omega
  | @goOn k hp hk =>
    cases k <;> simp_all [weight, Pc.weight, Next.pc, weigh, base]

/-- What is left to do for a job. -/
def jobWeight (cs : List Cmd) (b : Job) : Nat :=
  match cs[b.idx]? with
  | none => 0
  | some c => weight c b.run + ((cs.drop (b.idx + 1)).map (fun c => weight c (start c))).sum

/-- What is left to do for all the jobs. -/
def total (cmds : Nat → List Cmd) (s : St) : Nat → Nat
  | 0 => 0
  | n + 1 => jobWeight (cmds n) (s.job n) + total cmds s n

theorem total_lt {cmds : Nat → List Cmd} {s s' : St} {j n : Nat}
    (hj : j < n) (ho : ∀ i, i ≠ j → s'.job i = s.job i)
    (hlt : jobWeight (cmds j) (s'.job j) < jobWeight (cmds j) (s.job j)) :
    total cmds s' n < total cmds s n := by
  induction n with
  | zero => omega
  | succ n ih =>
    have same : ∀ m, m ≤ j → total cmds s' m = total cmds s m := by
      intro m
      induction m with
      | zero => intro; rfl
      | succ m ihm =>
        intro hm
        simp only [total]
        rw [ho m (by omega), ihm (by omega)]
    by_cases e : j = n
    · subst e
      simp only [total]
      rw [same j (Nat.le_refl _)]
      omega
    · simp only [total]
      rw [ho n (Ne.symm e)]
      have := ih (by omega)
      omega

theorem jobWeight_run {cmds : Nat → List Cmd} {s : St} {j : Nat} {c : Cmd} {r : Run}
    (hc : Cur cmds s j c) (h : weight c r < weight c (s.job j).run) :
    jobWeight (cmds j) ((s.setRun j r).job j) < jobWeight (cmds j) (s.job j) := by
  unfold Cur at hc
  simp only [jobWeight, St.setRun, if_true, hc]
  omega

theorem step_weight {g : Cfg} {cmds : Nat → List Cmd} {s s' : St} {n : Nat}
    (hn : ∀ j, n ≤ j → cmds j = []) (t : Step g cmds s s') :
    total cmds s' n < total cmds s n := by
  have hlt : ∀ {j c}, Cur cmds s j c → j < n := by
    intro j c hc
    refine Nat.lt_of_not_le (fun e => ?_)
    have := cur_lt hc
    rw [hn j e] at this
    simp at this
  have key : ∀ {j c r} (s' : St), Cur cmds s j c → s'.job = (s.setRun j r).job →
      weight c r < weight c (s.job j).run → total cmds s' n < total cmds s n := by
    intro j c r s' hc hj hw
    refine total_lt (hlt hc) (fun i hi => by rw [hj]; exact setRun_other s r hi) ?_
    rw [hj]
    exact jobWeight_run hc hw
  cases t with
  | @child j c x l hc hpi hl hr =>
    refine key _ hc rfl ?_
    simp only [weight, hl]
    simp
    omega
  | @direct j c x l hc hpi hl =>
    refine key _ hc rfl ?_
    simp only [weight, hl]
    simp
  | @«local» j c r hc hloc => exact key _ hc rfl (local_weight hloc)
  | @acquire j c w ws k hc hl hpc =>
    refine key _ hc rfl ?_
    simp only [weight, hpc, Pc.weight, weigh]
    omega
  | @put j c x w ws k hc hpc =>
    refine key _ hc rfl ?_
    simp only [weight, hpc, Pc.weight]
    simp
  | @release j c ws k hc hpc =>
    refine key _ hc rfl ?_
    simp only [weight, hpc, Pc.weight]
    simp
  | @copyBegin j c hc hl hpc hpi hs hser hq =>
    refine key _ hc rfl ?_
    simp only [weight, hpc, Pc.weight, base]
    omega
  | @copyPut j c x q hc hpc hq =>
    refine key _ hc rfl ?_
    simp only [weight, hq]
    simp
  | @copyEnd j c hc hpc hq hlft =>
    refine key _ hc rfl ?_
    simp only [weight, hpc, Pc.weight, base]
    omega
  | @next j c hc hpc =>
    refine total_lt (hlt hc) (fun i hi => if_neg hi) ?_
    have hc' := hc
    unfold Cur at hc
    simp only [if_true, jobWeight, hc]
    have hw : 0 < weight c (s.job j).run := by
      simp only [weight, hpc, Pc.weight]
      omega
    cases h1 : (cmds j)[(s.job j).idx + 1]? with
    | none => simp; omega
    | some d =>
      have hl : (s.job j).idx + 1 < (cmds j).length := (List.getElem?_eq_some_iff.1 h1).1
      have hd : (cmds j).drop ((s.job j).idx + 1) =
          d :: (cmds j).drop ((s.job j).idx + 1 + 1) := by
        rw [List.drop_eq_getElem_cons hl]
        rw [(List.getElem?_eq_some_iff.1 h1).2]
      rw [hd]
      simp [load, h1]
      omega

/-- States and how many steps it took. -/
inductive Steps (g : Cfg) (cmds : Nat → List Cmd) : Nat → St → Prop
  | init : Steps g cmds 0 (DiagBuf.init cmds)
  | step {n s s'} (h : Steps g cmds n s) (t : Step g cmds s s') : Steps g cmds (n + 1) s'

/-- **C75h.** Executions end: the number of steps is bounded, whatever the schedule. -/
theorem ends {g : Cfg} {cmds : Nat → List Cmd} {n : Nat} (hn : ∀ j, n ≤ j → cmds j = []) :
    ∃ m, ∀ k s, Steps g cmds k s → k ≤ m := by
  refine ⟨total cmds (DiagBuf.init cmds) n, fun k s h => ?_⟩
  have : k + total cmds s n ≤ total cmds (DiagBuf.init cmds) n := by
    induction h with
    | init => omega
    | step _ t ih =>
      have := step_weight hn t
      omega
  omega

/-! ## What does not hold, and examples -/

/-- A process that writes a line. -/
def liner (x : Char) (force : Bool) : Cmd := ⟨force, false, [], [x, '\n'], none⟩

/-- Two jobs with a process each. -/
def two (force : Bool) : Nat → List Cmd
  | 0 => [liner 'a' force]
  | 1 => [liner 'b' force]
  | _ => []

/-- With `--no-diag-buffer` processes that write to the stream directly get into each
other's lines. -/
theorem direct_mixed : ∃ s, Reach ⟨false, true, 16⟩ (two false) s ∧
    s.out.map (·.2) = ['a', 'b', '\n', '\n'] := by
  have r0 : Reach ⟨false, true, 16⟩ (two false) _ := .init
  have r1 := r0.step (.direct (j := 0) (c := liner 'a' false) rfl rfl rfl)
  have r2 := r1.step (.direct (j := 1) (c := liner 'b' false) rfl rfl rfl)
  have r3 := r2.step (.direct (j := 0) (c := liner 'a' false) rfl rfl rfl)
  have r4 := r3.step (.direct (j := 1) (c := liner 'b' false) rfl rfl rfl)
  exact ⟨_, r4, rfl⟩

/-- Without buffering a newline is added to what a process writes if it does not end with
one. -/
theorem newline_added : lines ['a', 'b'] = [['a', 'b', '\n']] := rfl

/-- Commands that meet what is asked of them in each of the modes. -/
example : Ok ⟨false, true, 16⟩ (two true) := by
  have h : ∀ j c, c ∈ two true j → ¬ Inherits ⟨false, true, 16⟩ c := by
    intro j c hc hi
    match j with
    | 0 =>
      have hc : c ∈ [liner 'a' true] := hc
      rw [List.mem_singleton.1 hc] at hi
      simp [Inherits, liner] at hi
    | 1 =>
      have hc : c ∈ [liner 'b' true] := hc
      rw [List.mem_singleton.1 hc] at hi
      simp [Inherits, liner] at hi
    | j + 2 =>
      have hc : c ∈ ([] : List Cmd) := hc
      simp at hc
  exact ⟨fun j c hc hi => absurd hi (h j c hc), .inr h⟩

/-- A failed compilation. -/
def failed : Cmd := ⟨false, false, [], "x.c:1: bad\n".toList, some "error: cc exited".toList⟩

example : text failed = "x.c:1: bad\nerror: cc exited\n".toList := by decide

/-- An execution to the end in a parallel build: the process of the second job writes
first but the first job is closed first. -/
example : ∃ s, Reach ⟨false, false, 16⟩ (two false) s ∧ Finished (two false) s ∧
    s.out.map (·.2) = ['a', '\n', 'b', '\n'] := by
  have r0 : Reach ⟨false, false, 16⟩ (two false) _ := .init
  have s1 := r0.step (.child (j := 1) (c := liner 'b' false) rfl rfl rfl (by decide))
  have s2 := s1.step (.child (j := 0) (c := liner 'a' false) rfl rfl rfl (by decide))
  have s3 := s2.step (.local (j := 1) (c := liner 'b' false) rfl (.call rfl rfl))
  have s4 := s3.step (.local (j := 1) (c := liner 'b' false) rfl
    (.copy (p := ['b']) (q := []) rfl rfl rfl rfl (by decide)))
  have s5 := s4.step (.child (j := 0) (c := liner 'a' false) rfl rfl rfl (by decide))
  have s6 := s5.step (.local (j := 0) (c := liner 'a' false) rfl (.call rfl rfl))
  have s7 := s6.step (.local (j := 0) (c := liner 'a' false) rfl
    (.copy (p := ['a', '\n']) (q := []) rfl rfl rfl rfl (by decide)))
  have s8 := s7.step (.local (j := 0) (c := liner 'a' false) rfl (.last rfl rfl rfl rfl))
  have s9 := s8.step (.local (j := 0) (c := liner 'a' false) rfl (.close rfl rfl))
  have s10 := s9.step (.acquire (j := 0) (c := liner 'a' false) (w := ['a', '\n']) (ps := [])
    (k := .closed) rfl rfl rfl)
  have s11 := s10.step (.put (j := 0) (c := liner 'a' false) rfl rfl)
  have s12 := s11.step (.child (j := 1) (c := liner 'b' false) rfl rfl rfl (by decide))
  have s13 := s12.step (.local (j := 1) (c := liner 'b' false) rfl
    (.copy (p := ['\n']) (q := []) rfl rfl rfl rfl (by decide)))
  have s14 := s13.step (.put (j := 0) (c := liner 'a' false) rfl rfl)
  have s15 := s14.step (.release (j := 0) (c := liner 'a' false) rfl rfl)
  have s16 := s15.step (.next (j := 0) (c := liner 'a' false) rfl rfl)
  have s17 := s16.step (.local (j := 1) (c := liner 'b' false) rfl (.last rfl rfl rfl rfl))
  have s18 := s17.step (.local (j := 1) (c := liner 'b' false) rfl (.close rfl rfl))
  have s19 := s18.step (.acquire (j := 1) (c := liner 'b' false) (w := ['b', '\n']) (ps := [])
    (k := .closed) rfl rfl rfl)
  have s20 := s19.step (.put (j := 1) (c := liner 'b' false) rfl rfl)
  have s21 := s20.step (.put (j := 1) (c := liner 'b' false) rfl rfl)
  have s22 := s21.step (.release (j := 1) (c := liner 'b' false) rfl rfl)
  have s23 := s22.step (.next (j := 1) (c := liner 'b' false) rfl rfl)
  refine ⟨_, s23, ?_, rfl⟩
  intro j
  match j with
  | 0 => exact Nat.le_refl 1
  | 1 => exact Nat.le_refl 1
  | j + 2 => exact Nat.zero_le _

end Verif.DiagBuf
