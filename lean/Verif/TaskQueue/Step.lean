import Verif.TaskQueue.Lemmas

/-! Helper lemmas: every operation preserves the invariant and is accepted by
the specification. -/
namespace Verif.TaskQueue

variable {α : Type} [DecidableEq α]

/-- What a verdict means for the model. -/
def Good (ex : Prop) (D : Nat) (m : M α) : Verdict α → Prop
  | .illegal => True
  | .wrong => False
  | .ok s => Inv ex D m s

omit [DecidableEq α] in
theorem Inv.sz {ex : Prop} {D : Nat} {m : M α} {s : Spec α} (i : Inv ex D m s) :
    m.q.size = s.items.length := by
  have := i.ring.len; simpa using this

theorem inv_disable {ex : Prop} {D : Nat} {m : M α} {s : Spec α} (i : Inv ex D m s) :
    Inv ex D ⟨(m.q.disable D).2, (m.q.disable D).1 :: m.frames⟩ { s with lvl := s.lvl + 1 } := by
  have hall : low (s.lvl + 1) s.items = s.items.length :=
    low_all (fun j hj => Nat.lt_succ_of_le (i.bound j hj))
  have hhead : (m.q.disable D).2.head = m.q.head := by unfold TQ.disable; split <;> rfl
  refine ⟨?_, by simp [i.lvl], i.sorted, ?_, ?_, ?_, ?_⟩
  · unfold TQ.disable; split
    · exact i.ring.mark D
    · exact i.ring
  · intro j hj; have := i.bound j hj; dsimp only; omega
  · intro _; left; unfold TQ.disable; split
    · rfl
    · exact Decidable.not_not.mp ‹¬ (m.q.mark ≠ D)›
  · intro _; right; right; refine ⟨hall, ?_⟩
    unfold TQ.disable; split
    · rfl
    · exact Decidable.not_not.mp ‹¬ (m.q.mark ≠ D)›
  · refine ⟨?_, by rw [hhead]; exact i.frames⟩
    rw [hhead, ← i.lvl]
    dsimp only
    by_cases hn : s.items = []
    · rw [hn]; unfold TQ.disable; split <;> simp [FrameOk, low]
    · unfold TQ.disable; split
      · rename_i hm
        rcases i.mark1 hn with h | ⟨h, h'⟩ | ⟨h, h'⟩
        · left; exact ⟨h.1, fun he => absurd he h.2⟩
        · right; exact ⟨by omega, h'⟩
        · exact absurd h' hm
      · rename_i hm
        have hm : m.q.mark = D := by simpa using hm
        rcases i.mark1 hn with h | ⟨h, h'⟩ | ⟨h, h'⟩
        · left; exact ⟨h.1, fun he => absurd he h.2⟩
        · have := i.ring.hl
          have : (m.q.head + low s.lvl s.items) % D < D := Nat.mod_lt _ (by omega)
          omega
        · right; omega

omit [DecidableEq α] in
theorem getLast_level {ex : Prop} {s : Spec α} {D : Nat} {m : M α} (i : Inv ex D m s)
    (h : low s.lvl s.items < s.items.length) {a : List (Nat × α)} {x : Nat × α}
    (e : s.items = a ++ [x]) : x.1 = s.lvl := by
  have hb := i.bound x (by rw [e]; simp)
  by_cases hx : x.1 < s.lvl
  · have hall : ∀ j ∈ s.items, j.1 < s.lvl := by
      intro j hj
      have hs := i.sorted
      rw [e] at hj hs
      rw [List.pairwise_append] at hs
      rcases List.mem_append.mp hj with hj | hj
      · have := hs.2.2 j hj x (by simp); omega
      · simp at hj; subst hj; exact hx
    have := low_all hall
    omega
  · omega

theorem step_good {ex : Prop} {D : Nat} {m : M α} {s : Spec α} (i : Inv ex D m s) (op : Op α)
    (hop : ex → op ≠ .helperTake) :
    Good ex D (m.step D op).1 (s.step D op (m.step D op).2) := by
  have hD : 0 < D := Nat.lt_of_le_of_lt (Nat.zero_le _) i.ring.hl
  cases op with
  | async x =>
    by_cases hlt : s.items.length < D
    · obtain ⟨q', hp, hr, hh, ht, hm⟩ := ring_push i.ring (by simpa using hlt) x
      simp only [M.step, hp, Spec.step, if_pos hlt, Good]
      have hlow : ∀ l ≤ s.lvl, low l s.items = low l (s.items ++ [(s.lvl, x)]) := by
        intro l hl
        rw [low_append]
        simp only [low, List.countP_cons, List.countP_nil]
        simp; omega
      refine ⟨by simpa using hr, i.lvl, ?_, ?_, by simp, ?_, ?_⟩
      · rw [List.pairwise_append]
        refine ⟨i.sorted, by simp, ?_⟩
        intro a ha b hb
        simp at hb; subst hb; exact i.bound a ha
      · intro j hj
        rcases List.mem_append.mp hj with hj | hj
        · exact i.bound j hj
        · simp at hj; subst hj; simp
      · intro _
        dsimp only
        rw [← hlow _ (Nat.le_refl _), hm, ht, hh]
        simp only [List.length_append, List.length_cons, List.length_nil, List.length_map]
        by_cases hn : s.items = []
        · right; left
          rw [hn]
          refine ⟨by simp [low], ?_⟩
          simp only [low, List.countP_nil, List.length_nil]
          rcases i.mark0 hn with h | h
          · rw [if_pos h]
          · have := i.ring.hl
            rw [if_neg (by omega), h, Nat.add_zero, wrap_lt i.ring.hl]
        · rcases i.mark1 hn with h | ⟨h, h'⟩ | ⟨h, h'⟩
          · left; exact h
          · right; left
            refine ⟨by omega, ?_⟩
            have : (m.q.head + low s.lvl s.items) % D < D := Nat.mod_lt _ hD
            rw [if_neg (by omega), h']
          · right; left
            refine ⟨by omega, ?_⟩
            rw [if_pos h', h]
      · dsimp only; rw [hh]
        exact framesOk_same _ (fun l hl => hlow l (by rw [i.lvl]; exact hl)) i.frames
    · obtain ⟨hp, hf⟩ := ring_full i.ring (by simpa using hlt) x
      have hf : s.items.length = D := by simpa using hf
      simp only [M.step, hp, Spec.step, hf, and_self, if_true, Good]
      exact inv_disable i
  | setMark =>
    simp only [M.step, Spec.step, Good]
    exact inv_disable i
  | helperTake =>
    cases hi : s.items with
    | nil =>
      have : m.q.emptyFront = true := by simp [TQ.emptyFront, i.sz, hi]
      simp only [M.step, this, if_true, Spec.step, hi, Good]
      exact i
    | cons it rest =>
      have hne : m.q.emptyFront = false := by simp [TQ.emptyFront, i.sz, hi]
      have hr := i.ring
      rw [hi] at hr
      simp only [List.map_cons] at hr
      obtain ⟨q', hp, hr', hm, hh⟩ := ring_popFront hr
      simp only [M.step, hne, hp, Spec.step, hi, if_true, Good, Bool.false_eq_true, if_false]
      have hex : ¬ ex := fun h => hop h rfl
      have hs := i.sorted
      rw [hi, List.pairwise_cons] at hs
      have hle := i.ring.le
      rw [hi] at hle
      simp at hle
      have hnm : rest.map (·.2) = [] ↔ rest = [] := by simp
      simp only [hnm] at hm
      rw [Ne, hnm] at hh
      refine ⟨hr', i.lvl, hs.2, fun j hj => i.bound j (by rw [hi]; simp [hj]), ?_, ?_, ?_⟩
      · intro hn
        dsimp only at hn ⊢
        rw [hm, if_pos (Or.inl hn)]; right; rfl
      · intro hn
        dsimp only at hn ⊢
        rw [hh hn]
        have hlc := low_cons s.lvl it rest
        have hm1 := i.mark1 (by rw [hi]; simp)
        rw [hi] at hm1
        by_cases hl : it.1 < s.lvl
        · rw [if_pos hl] at hlc
          have hle := low_le s.lvl rest
          have w := wrap_succ (i := low s.lvl rest) i.ring.hl (by omega)
          rw [hm, w]
          simp only [hlc] at hm1
          have hnh : m.q.head ≠ m.q.mark := by
            intro e
            rcases hm1 with h | ⟨h, h'⟩ | ⟨h, h'⟩
            · omega
            · simp only [List.length_cons] at h
              have e' : (m.q.head + 0) % D = (m.q.head + (low s.lvl rest + 1)) % D := by
                rw [← h', ← e]; simp [wrap_lt i.ring.hl]
              have := wrap_inj i.ring.hl hD (by omega) e'
              omega
            · have := i.ring.hl; omega
          rw [if_neg (by simp [hn, hnh])]
          simp only [List.length_cons] at hm1
          rcases hm1 with h | ⟨h, h'⟩ | ⟨h, h'⟩
          · omega
          · right; left; exact ⟨by omega, h'⟩
          · right; right; exact ⟨by omega, h'⟩
        · left
          refine ⟨?_, hex⟩
          exact low_zero (fun j hj => by have := hs.1 j hj; omega)
      · dsimp only
        have hf := i.frames
        rw [hi] at hf
        exact framesOk_front' hex i.ring.hl (by omega) hs.1 _ hh hf
  | ownTake =>
    by_cases he : m.q.emptyBack D = true
    · simp only [M.step, he, if_true, Spec.step]
      have : s.own = [] ∨ s.own = s.items := by
        by_cases hn : s.items = []
        · left; simp [Spec.own, hn]
        · have hm : m.q.mark = D := by
            simp only [TQ.emptyBack, i.sz, Bool.or_eq_true, beq_iff_eq] at he
            rcases he with he | he
            · exact absurd (List.eq_nil_of_length_eq_zero he) hn
            · exact he
          rcases i.mark1 hn with h | ⟨h, h'⟩ | ⟨h, h'⟩
          · right
            unfold Spec.own
            rw [List.filter_eq_self]
            intro j hj
            have hb := i.bound j hj
            have h := h.1
            unfold low at h
            rw [List.countP_eq_zero] at h
            have := h j hj
            simp at this ⊢
            omega
          · have : (m.q.head + low s.lvl s.items) % D < D := Nat.mod_lt _ hD
            omega
          · left
            rw [own_nil]
            intro j hj
            unfold low at h
            rw [List.countP_eq_length] at h
            have := h j hj
            simp at this
            omega
      rw [if_pos this]
      exact i
    · have hne : s.items ≠ [] := by
        intro h; apply he; simp [TQ.emptyBack, i.sz, h]
      have hmk : m.q.mark ≠ D := by
        intro h; apply he; simp [TQ.emptyBack, h]
      have hex : ∃ a x, s.items = a ++ [x] :=
        ⟨_, _, (List.dropLast_concat_getLast hne).symm⟩
      obtain ⟨a, x, hax⟩ := hex
      have hr := i.ring
      rw [hax] at hr
      simp only [List.map_append, List.map_cons, List.map_nil] at hr
      obtain ⟨q', hp, hr', hm', hh, ht⟩ := ring_popBack hr
      have hlow : low s.lvl s.items < s.items.length := by
        have : 0 < s.items.length := by rw [hax]; simp
        rcases i.mark1 hne with h | ⟨h, h'⟩ | ⟨h, h'⟩
        · omega
        · exact h
        · exact absurd h' hmk
      have hxl := getLast_level i hlow hax
      have hgl : s.items.getLast? = some x := by rw [hax]; simp
      simp only [M.step, he, hp, Spec.step, hgl, hxl, and_self, if_true, Good, Bool.false_eq_true,
        if_false]
      have hdl : s.items.dropLast = a := by rw [hax]; simp
      rw [hdl]
      have hlo : ∀ l ≤ s.lvl, low l s.items = low l a := by
        intro l hl
        rw [hax, low_append, low_cons, if_neg (by omega)]
        simp [low]
      have hall : low (s.lvl + 1) a = a.length :=
        low_all (fun j hj => Nat.lt_succ_of_le (i.bound j (by rw [hax]; simp [hj])))
      have hsrt := i.sorted
      rw [hax, List.pairwise_append] at hsrt
      refine ⟨hr', by simp [i.lvl], hsrt.1, ?_, ?_, ?_, ?_⟩
      · intro j hj
        have := i.bound j (by rw [hax]; simp [hj])
        dsimp only; omega
      · intro _; left; exact hm'
      · intro _; right; right; exact ⟨hall, hm'⟩
      · dsimp only
        rw [hh]
        refine ⟨?_, framesOk_same _ (fun l hl => hlo l (by rw [i.lvl]; exact hl)) i.frames⟩
        rw [← i.lvl]
        simp only [FrameOk, hall, ← hlo _ (Nat.le_refl _)]
        have hsl : s.items.length = a.length + 1 := by rw [hax]; simp
        have hle := i.ring.le
        simp at hle
        rcases i.mark1 hne with h | ⟨h, h'⟩ | ⟨h, h'⟩
        · left; exact ⟨h.1, fun he => absurd he h.2⟩
        · by_cases hk : low s.lvl s.items = a.length
          · right; right
            refine ⟨hk, Or.inl ?_⟩
            rw [h', ht, hk]; simp
          · right; left
            refine ⟨by omega, h', ?_⟩
            simp only [beq_eq_false_iff_ne]
            intro e
            rw [ht, h'] at e
            have := wrap_inj i.ring.hl (by simp; omega) (by omega) e
            simp at this
            omega
        · exact absurd h' hmk
  | leave =>
    cases hf : m.frames with
    | nil =>
      have : s.lvl = 0 := by rw [i.lvl, hf]; rfl
      simp [M.step, hf, Spec.step, this, Good]
    | cons f r =>
      have hl : s.lvl = r.length + 1 := by rw [i.lvl, hf]; rfl
      simp only [M.step, hf, Spec.step]
      by_cases ho : s.own = []
      · rw [if_neg (by simp [ho, hl])]
        have ho' := own_nil.mp ho
        have hb : ∀ j ∈ s.items, j.1 ≤ r.length := by
          intro j hj
          have h1 := i.bound j hj
          have h2 := ho' j hj
          omega
        have hall : low (r.length + 1) s.items = s.items.length :=
          low_all (fun j hj => Nat.lt_succ_of_le (hb j hj))
        have hfr := i.frames
        rw [hf] at hfr
        have hhead : (m.q.restore D f).head = m.q.head := by
          cases f <;> simp only [TQ.restore] <;> (repeat' split) <;> rfl
        have hl' : s.lvl - 1 = r.length := by omega
        simp only [Good, hl']
        refine ⟨?_, rfl, i.sorted, hb, ?_, ?_, ?_⟩
        · cases f <;> simp only [TQ.restore]
          · (repeat' split) <;> exact i.ring.mark _
          · exact i.ring.mark _
          · exact i.ring
        · intro hn
          dsimp only at hn
          have hz : m.q.size = 0 := by rw [i.sz, hn]; rfl
          have ht := i.ring.t0 (by simp [hn])
          cases f <;> simp only [TQ.restore, hz, if_true]
          · right; exact ht
          · right; exact ht
          · exact i.mark0 hn
        · intro hn
          have hz : m.q.size ≠ 0 := by
            rw [i.sz]; intro h; exact hn (List.eq_nil_of_length_eq_zero h)
          dsimp only
          rw [hhead]
          have hfo := hfr.1
          cases f <;> simp only [FrameOk, hall] at hfo <;> simp only [TQ.restore, if_neg hz]
          · rcases hfo with h | ⟨h, h', h''⟩ | ⟨h, h'⟩
            · left; exact ⟨h.1, fun he => absurd (h.2 he) (by rw [i.sz] at hz; omega)⟩
            · right; left
              refine ⟨h, ?_⟩
              simp [h'', h']
            · right; right
              refine ⟨h, ?_⟩
              rcases h' with h' | h'
              · simp [h']
              · split <;> simp [h']
          · rcases hfo with h | h
            · left; exact ⟨h.1, fun he => absurd (h.2 he) (by rw [i.sz] at hz; omega)⟩
            · right; left; exact h
          · rcases hfo with h | h
            · left; exact ⟨h.1, fun he => absurd (h.2 he) (by rw [i.sz] at hz; omega)⟩
            · right; right
              refine ⟨h, ?_⟩
              have hlen : 0 < s.items.length := by
                rw [← i.sz]; omega
              rcases i.mark1 hn with h1 | ⟨h1, h'⟩ | ⟨h1, h'⟩
              · rw [hl] at h1; omega
              · rw [hl] at h1; omega
              · exact h'
        · dsimp only; rw [hhead]; exact hfr.2
      · rw [if_pos (Or.inr ho)]; trivial

omit [DecidableEq α] in
/-- When exact, the owner is told that there is nothing only if so. -/
theorem own_none {ex : Prop} (hex : ex) {D : Nat} {m : M α} {s : Spec α} (i : Inv ex D m s)
    (h : (m.step D .ownTake).2 = none) : s.own = [] := by
  have hD : 0 < D := Nat.lt_of_le_of_lt (Nat.zero_le _) i.ring.hl
  by_cases hn : s.items = []
  · simp [Spec.own, hn]
  by_cases he : m.q.emptyBack D = true
  · have hm : m.q.mark = D := by
      simp only [TQ.emptyBack, i.sz, Bool.or_eq_true, beq_iff_eq] at he
      rcases he with he | he
      · exact absurd (List.eq_nil_of_length_eq_zero he) hn
      · exact he
    rcases i.mark1 hn with h | ⟨h, h'⟩ | ⟨h, h'⟩
    · exact absurd hex h.2
    · have : (m.q.head + low s.lvl s.items) % D < D := Nat.mod_lt _ hD
      omega
    · rw [own_nil]
      intro j hj
      unfold low at h
      rw [List.countP_eq_length] at h
      have := h j hj
      simp at this
      omega
  · obtain ⟨a, x, hax⟩ : ∃ a x, s.items = a ++ [x] :=
      ⟨_, _, (List.dropLast_concat_getLast hn).symm⟩
    have hr := i.ring
    rw [hax] at hr
    simp only [List.map_append, List.map_cons, List.map_nil] at hr
    obtain ⟨q', hp, _⟩ := ring_popBack hr
    simp [M.step, he, hp] at h

theorem run_good {ex : Prop} {D : Nat} : ∀ (ops : List (Op α)) {m : M α} {s : Spec α},
    Inv ex D m s → (ex → Op.helperTake ∉ ops) →
    Good ex D (m.run D ops).1 (s.run D (m.run D ops).2)
  | [], _, _, i, _ => i
  | op :: r, m, s, i, hh => by
    have h := step_good i op (fun he e => hh he (by simp [e]))
    simp only [M.run, Spec.run]
    cases hv : s.step D op (m.step D op).2 with
    | illegal => trivial
    | wrong => rw [hv] at h; exact h
    | ok s' =>
      rw [hv] at h
      exact run_good r h (fun he hm => hh he (by simp [hm]))

end Verif.TaskQueue
