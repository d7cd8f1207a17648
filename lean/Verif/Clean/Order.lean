import Verif.Clean.Model

/-! # The clean operation: order of execution -/

namespace Verif.Clean

/-! ## What is matched -/

theorem injected_iff (g : Graph) (t u : Nat) : injected g t = some u ↔
    u = g.fsdir (g.holder t) ∧ (g.out (g.holder t) = true ∨ ∃ i, (u, i) ∈ (g.target t).pre) := by
  have e : within (g.target t) = g.holder t := by
    unfold within Graph.holder
    cases (g.target t).kind <;> rfl
  unfold injected
  rw [e]
  by_cases h1 : g.out (g.holder t) = true
  · rw [if_pos h1]
    constructor
    · intro h; injection h with h; exact ⟨h.symm, Or.inl h1⟩
    · rintro ⟨rfl, _⟩; rfl
  · rw [if_neg h1]
    by_cases h2 : ((g.target t).pre.any fun p => decide (p.1 = g.fsdir (g.holder t))) = true
    · rw [if_pos h2]
      obtain ⟨p, hp, he⟩ := List.any_eq_true.1 h2
      have he : p.1 = g.fsdir (g.holder t) := of_decide_eq_true he
      constructor
      · intro h; injection h with h
        subst h
        exact ⟨rfl, Or.inr ⟨p.2, by rw [← he]; exact hp⟩⟩
      · rintro ⟨rfl, _⟩; rfl
    · rw [if_neg h2]
      constructor
      · intro h; cases h
      · rintro ⟨rfl, h | ⟨i, h⟩⟩
        · exact absurd h h1
        · exact absurd (List.any_eq_true.2 ⟨_, h, decide_eq_true rfl⟩) h2

theorem mem_pre_iff (g : Graph) (t u : Nat) : u ∈ pre g t ↔ g.Involves t u := by
  have key : ∀ (c : Nat → Bool) (k : (g.target t).kind ≠ .source)
      (hc : ∀ v, c v = true ↔
        ((g.target t).kind = .alias ∨ (g.target t).root <+: (g.target v).dir)),
      (u ∈ (injected g t).toList ++
        ((g.target t).pre.filter fun p => p.2 && some p.1 ≠ injected g t && c p.1).map (·.1)) ↔
      g.Involves t u := by
    intro c k hc
    unfold Graph.Involves
    rw [List.mem_append, Option.mem_toList, ← injected_iff]
    constructor
    · rintro (h | h)
      · exact ⟨k, Or.inl h⟩
      · obtain ⟨p, hp, rfl⟩ := List.mem_map.1 h
        rw [List.mem_filter] at hp
        obtain ⟨hp, h⟩ := hp
        simp only [Bool.and_eq_true] at h
        refine ⟨k, Or.inr ⟨?_, (hc _).1 h.2⟩⟩
        rw [← h.1.1]; exact hp
    · rintro ⟨_, h | ⟨h1, h2⟩⟩
      · exact Or.inl h
      · by_cases hi : injected g t = some u
        · exact Or.inl hi
        · refine Or.inr (List.mem_map.2 ⟨(u, true), List.mem_filter.2 ⟨h1, ?_⟩, rfl⟩)
          simp only [Bool.and_eq_true]
          exact ⟨⟨trivial, decide_eq_true (fun e => hi e.symm)⟩, (hc u).2 h2⟩
  unfold pre
  cases hk : (g.target t).kind with
  | source =>
    simp only
    constructor
    · intro h; cases h
    · rintro ⟨h, _⟩; exact absurd hk h
  | alias =>
    have := key (fun _ => true) (by rw [hk]; nofun) (fun v => by simp [hk])
    simpa using this
  | fsdir =>
    exact key (fun v => decide ((g.target t).root <+: (g.target v).dir)) (by rw [hk]; nofun)
      (fun v => by rw [hk]; simp)
  | file =>
    exact key (fun v => decide ((g.target t).root <+: (g.target v).dir)) (by rw [hk]; nofun)
      (fun v => by rw [hk]; simp)
  | group =>
    exact key (fun v => decide ((g.target t).root <+: (g.target v).dir)) (by rw [hk]; nofun)
      (fun v => by rw [hk]; simp)

/-- How many times a target is a prerequisite of others. -/
def owed (g : Graph) (us : List Nat) (x : Nat) : Nat := (us.map fun u => (pre g u).count x).sum

theorem owed_pos {g : Graph} {us : List Nat} {x : Nat} :
    0 < owed g us x ↔ ∃ u ∈ us, x ∈ pre g u := by
  induction us with
  | nil => simp [owed]
  | cons u us ih =>
    have e : owed g (u :: us) x = (pre g u).count x + owed g us x := by simp [owed]
    rw [e]
    constructor
    · intro h
      by_cases hu : x ∈ pre g u
      · exact ⟨u, List.mem_cons_self .., hu⟩
      · rw [List.count_eq_zero.2 hu, Nat.zero_add] at h
        obtain ⟨v, hv, h⟩ := ih.1 h
        exact ⟨v, List.mem_cons_of_mem _ hv, h⟩
    · rintro ⟨v, hv, h⟩
      rcases List.mem_cons.1 hv with rfl | hv
      · have := List.count_pos_iff.2 h
        omega
      · have := ih.2 ⟨v, hv, h⟩
        omega

theorem owed_cons (g : Graph) (u : Nat) (us : List Nat) (x : Nat) :
    owed g (u :: us) x = (pre g u).count x + owed g us x := by simp [owed]

theorem count_mid (l r : List Nat) (t x : Nat) :
    (l ++ t :: r).count x = (l ++ r).count x + if x = t then 1 else 0 := by
  simp only [List.count_append, List.count_cons]
  by_cases h : x = t
  · subst h; simp; omega
  · have : ¬ t = x := fun e => h e.symm
    simp [h, this]

/-! ## The match phase -/

structure MInv (g : Graph) (roots : List Nat) (m : Match) : Prop where
  cleaned : ∀ t, t ∈ m.calls ∨ t ∈ m.matched → g.Cleaned roots t
  nodup   : m.matched.Nodup
  count   : ∀ x, m.count x + m.calls.count x = roots.count x + owed g m.matched x
  pos     : ∀ x, x ∈ m.matched ↔ 0 < m.count x

theorem match_inv {g : Graph} {roots : List Nat} {m : Match}
    (h : Star (Match.Step g) ⟨roots, [], fun _ => 0⟩ m) : MInv g roots m := by
  induction h with
  | refl =>
    exact ⟨fun t h => h.elim .root nofun, List.nodup_nil, fun x => by simp [owed], by simp⟩
  | @tail m _ _ hs ih =>
    cases hs with
    | @again l t r hc ht =>
      refine ⟨fun x hx => ih.cleaned x ?_, ih.nodup, fun x => ?_, fun x => ?_⟩
      · rw [hc]
        rcases hx with hx | hx
        · refine Or.inl ?_
          rcases List.mem_append.1 hx with h | h
          · exact List.mem_append_left _ h
          · exact List.mem_append_right _ (List.mem_cons_of_mem _ h)
        · exact Or.inr hx
      · have := ih.count x
        rw [hc, count_mid] at this
        show bump m.count t x + (l ++ r).count x = roots.count x + owed g m.matched x
        unfold bump
        by_cases hx : x = t
        · rw [if_pos hx]; rw [if_pos hx] at this; omega
        · rw [if_neg hx]; rw [if_neg hx] at this; omega
      · show _ ↔ 0 < bump _ t x
        unfold bump
        by_cases hx : x = t
        · rw [if_pos hx]
          subst hx
          exact ⟨fun _ => Nat.succ_pos _, fun _ => ht⟩
        · rw [if_neg hx]; exact ih.pos x
    | @first l t r hc ht =>
      have htc : g.Cleaned roots t := ih.cleaned t (Or.inl (by rw [hc]; simp))
      refine ⟨fun x hx => ?_, List.nodup_cons.2 ⟨ht, ih.nodup⟩, fun x => ?_, fun x => ?_⟩
      · rcases hx with hx | hx
        · rcases List.mem_append.1 hx with h | h
          · refine ih.cleaned x (Or.inl ?_)
            rw [hc]
            rcases List.mem_append.1 h with h | h
            · exact List.mem_append_left _ h
            · exact List.mem_append_right _ (List.mem_cons_of_mem _ h)
          · exact .pre htc ((mem_pre_iff g t x).1 h)
        · rcases List.mem_cons.1 hx with rfl | hx
          · exact htc
          · exact ih.cleaned x (Or.inr hx)
      · have := ih.count x
        rw [hc, count_mid] at this
        show bump _ t x + (l ++ r ++ pre g t).count x = _ + owed g (t :: m.matched) x
        rw [owed_cons, List.count_append]
        unfold bump
        by_cases hx : x = t
        · rw [if_pos hx]; rw [if_pos hx] at this; omega
        · rw [if_neg hx]; rw [if_neg hx] at this; omega
      · show x ∈ t :: m.matched ↔ 0 < bump _ t x
        unfold bump
        by_cases hx : x = t
        · rw [if_pos hx]
          subst hx
          exact ⟨fun _ => Nat.succ_pos _, fun _ => List.mem_cons_self ..⟩
        · rw [if_neg hx, List.mem_cons, ← ih.pos x]
          exact ⟨fun h => h.elim (fun e => absurd e hx) id, Or.inr⟩

/-- What there is after everything has been matched. -/
structure Matched (g : Graph) (roots : List Nat) (M : List Nat) (count : Nat → Nat) : Prop where
  nodup   : M.Nodup
  cleaned : ∀ t, t ∈ M ↔ g.Cleaned roots t
  total   : ∀ x, count x = roots.count x + owed g M x
  pos     : ∀ x, x ∈ M ↔ 0 < count x

theorem match_over {g : Graph} {roots : List Nat} {m : Match}
    (h : Star (Match.Step g) ⟨roots, [], fun _ => 0⟩ m) (hc : m.calls = []) :
    Matched g roots m.matched m.count := by
  have hi := match_inv h
  have hcount : ∀ x, m.count x = roots.count x + owed g m.matched x := fun x => by
    have := hi.count x
    rw [hc, List.count_nil] at this
    exact this
  refine ⟨hi.nodup, fun t => ⟨fun h => hi.cleaned t (Or.inr h), fun h => ?_⟩, hcount, hi.pos⟩
  induction h with
  | root h =>
    rw [hi.pos, hcount]
    have := List.count_pos_iff.2 h
    omega
  | pre _ h ih =>
    rw [hi.pos, hcount]
    have := owed_pos.2 ⟨_, ih, (mem_pre_iff ..).2 h⟩
    omega

/-! ## The execute phase -/

/-- What is yet to execute its prerequisites. -/
def left (M done : List Nat) : List Nat := M.filter (· ∉ done)

theorem left_nil (M : List Nat) : left M [] = M := by
  unfold left
  rw [List.filter_eq_self]
  simp

theorem owed_left (g : Graph) {M done : List Nat} {t : Nat} (hM : M.Nodup) (ht : t ∈ M)
    (hd : t ∉ done) (x : Nat) :
    owed g (left M done) x = (pre g t).count x + owed g (left M (t :: done)) x := by
  induction M with
  | nil => cases ht
  | cons u M ih =>
    rw [List.nodup_cons] at hM
    rcases List.mem_cons.1 ht with rfl | ht
    · have h1 : left (t :: M) done = t :: left M done := by
        unfold left; rw [List.filter_cons_of_pos (by simpa using hd)]
      have h2 : left (t :: M) (t :: done) = left M (t :: done) := by
        unfold left; rw [List.filter_cons_of_neg (by simp)]
      have h3 : left M (t :: done) = left M done := by
        unfold left
        apply List.filter_congr
        intro v hv
        have : v ≠ t := fun e => hM.1 (e ▸ hv)
        simp [this]
      rw [h1, h2, h3, owed_cons]
    · have hu : u ≠ t := fun e => hM.1 (e ▸ ht)
      by_cases hd' : u ∈ done
      · have h1 : left (u :: M) done = left M done := by
          unfold left; rw [List.filter_cons_of_neg (by simpa using hd')]
        have h2 : left (u :: M) (t :: done) = left M (t :: done) := by
          unfold left; rw [List.filter_cons_of_neg (by simp [hd'])]
        rw [h1, h2]; exact ih hM.2 ht
      · have h1 : left (u :: M) done = u :: left M done := by
          unfold left; rw [List.filter_cons_of_pos (by simpa using hd')]
        have h2 : left (u :: M) (t :: done) = u :: left M (t :: done) := by
          unfold left; rw [List.filter_cons_of_pos (by simp [hd', hu])]
        rw [h1, h2, owed_cons, owed_cons, ih hM.2 ht]
        omega

/-- Those of which the recipe has been started. -/
def Exec.started (s : Exec) : List Nat := s.running.map (·.1) ++ s.done ++ s.failed

structure EInv (g : Graph) (M : List Nat) (s : Exec) : Prop where
  count : ∀ x, s.count x = s.calls.count x + owed g (left M s.done) x
  nodup : s.started.Nodup
  sub   : ∀ x, x ∈ s.started → x ∈ M
  pos   : ∀ x, 0 < s.count x ↔ x ∈ M ∧ x ∉ s.started

theorem started_perm {s s' : Exec} (h : s'.started.Perm s.started) {g : Graph} {M : List Nat}
    (hi : EInv g M s) : s'.started.Nodup ∧ (∀ x, x ∈ s'.started → x ∈ M) ∧
      ∀ x, x ∉ s'.started ↔ x ∉ s.started :=
  ⟨h.symm.nodup hi.nodup, fun x hx => hi.sub x (h.mem_iff.1 hx), fun _ => not_congr h.mem_iff⟩

theorem exec_step {g : Graph} {M : List Nat} (hM : M.Nodup) {s s' : Exec}
    (hi : EInv g M s) (hs : Exec.Step g s s') : EInv g M s' := by
  have hcall : ∀ t, t ∈ s.calls → 0 < s.count t := fun t ht => by
    have := List.count_pos_iff.2 ht
    rw [hi.count t]
    omega
  cases hs with
  | @postpone l t r hc hn =>
    have ht := hcall t (by rw [hc]; simp)
    refine ⟨fun x => ?_, hi.nodup, hi.sub, fun x => ?_⟩
    · have := hi.count x
      rw [hc, count_mid] at this
      show drop _ t x = (l ++ r).count x + owed g (left M s.done) x
      unfold drop
      by_cases hx : x = t
      · rw [if_pos hx]; rw [if_pos hx] at this; omega
      · rw [if_neg hx]; rw [if_neg hx] at this; omega
    · show 0 < drop _ t x ↔ x ∈ M ∧ x ∉ s.started
      rw [← hi.pos x]
      unfold drop
      by_cases hx : x = t
      · subst hx
        rw [if_pos rfl]; omega
      · rw [if_neg hx]
  | @start l t r hc hn =>
    have ht := hcall t (by rw [hc]; simp)
    have hm := (hi.pos t).1 ht
    refine ⟨fun x => ?_, List.nodup_cons.2 ⟨hm.2, hi.nodup⟩, ?_, fun x => ?_⟩
    · have := hi.count x
      rw [hc, count_mid] at this
      show drop _ t x = (l ++ r).count x + owed g (left M s.done) x
      unfold drop
      by_cases hx : x = t
      · rw [if_pos hx]; rw [if_pos hx] at this; omega
      · rw [if_neg hx]; rw [if_neg hx] at this; omega
    · intro x hx
      rcases List.mem_cons.1 hx with rfl | hx
      · exact hm.1
      · exact hi.sub x hx
    · show 0 < drop _ t x ↔ x ∈ M ∧ x ∉ t :: s.started
      unfold drop
      by_cases hx : x = t
      · subst hx
        rw [if_pos rfl]
        constructor
        · intro h; omega
        · rintro ⟨_, h⟩; exact absurd (List.mem_cons_self ..) h
      · rw [if_neg hx, hi.pos x, List.mem_cons]
        simp [hx]
  | @act l t a as r f hr hf =>
    have e : Exec.started { s with fs := f, running := l ++ (t, as) :: r } = s.started := by
      unfold Exec.started
      rw [hr]
      simp
    exact ⟨hi.count, by rw [e]; exact hi.nodup, by rw [e]; exact hi.sub, by
      rw [e]; exact hi.pos⟩
  | @finish l t r hr =>
    have hp : (Exec.started { s with
        running := l ++ r, done := t :: s.done, calls := s.calls ++ (pre g t).reverse }).Perm
        s.started := by
      unfold Exec.started
      rw [hr]
      simp only [List.map_append, List.map_cons, List.append_assoc, List.cons_append]
      refine List.Perm.append_left _ ?_
      exact List.perm_middle
    obtain ⟨h1, h2, h3⟩ := started_perm hp hi
    have hts : t ∈ s.started := by
      unfold Exec.started; rw [hr]; simp
    have htd : t ∉ s.done := by
      intro h
      have := hi.nodup
      unfold Exec.started at this
      rw [hr, List.append_assoc, List.nodup_append] at this
      exact this.2.2 t (by simp) t (List.mem_append_left _ h) rfl
    refine ⟨fun x => ?_, h1, h2, fun x => ?_⟩
    · show s.count x = (s.calls ++ (pre g t).reverse).count x + owed g (left M (t :: s.done)) x
      rw [hi.count x, owed_left g hM (hi.sub t hts) htd x, List.count_append, List.count_reverse]
      omega
    · rw [h3]; exact hi.pos x
  | @fail l t as r hr =>
    have hp : (Exec.started { s with running := l ++ r, failed := t :: s.failed }).Perm
        s.started := by
      unfold Exec.started
      rw [hr]
      simp only [List.map_append, List.map_cons, List.append_assoc, List.cons_append]
      refine List.Perm.append_left _ ?_
      have : ∀ (a b c : List Nat) (t : Nat),
          (a ++ (b ++ t :: c)).Perm (t :: (a ++ (b ++ c))) := by
        intro a b c t
        rw [← List.append_assoc, ← List.append_assoc]
        exact List.perm_middle
      exact this _ _ _ _
    obtain ⟨h1, h2, h3⟩ := started_perm hp hi
    exact ⟨hi.count, h1, h2, fun x => by rw [h3]; exact hi.pos x⟩

theorem exec_inv {g : Graph} {roots M : List Nat} {count : Nat → Nat} {fs : FS} {s : Exec}
    (hm : Matched g roots M count) (h : Star (Exec.Step g) ⟨fs, count, roots, [], [], []⟩ s) :
    EInv g M s := by
  generalize hs0 : (⟨fs, count, roots, [], [], []⟩ : Exec) = s0 at h
  induction h with
  | refl =>
    subst hs0
    refine ⟨fun x => ?_, List.nodup_nil, nofun, fun x => ?_⟩
    · show count x = roots.count x + owed g (left M []) x
      rw [left_nil]; exact hm.total x
    · show 0 < count x ↔ x ∈ M ∧ x ∉ []
      rw [hm.pos x]
      simp
  | tail _ hs ih => exact exec_step hm.nodup ih hs

/-- When a recipe is started, all that involves it is done. -/
theorem dependents_done {g : Graph} {M : List Nat} {s : Exec} (hi : EInv g M s) {t u : Nat}
    (hu : u ∈ M) (h : g.Involves u t) (ht : t ∈ s.started) : u ∈ s.done := by
  apply Classical.byContradiction
  intro hd
  have : ¬ 0 < s.count t := fun hp => ((hi.pos t).1 hp).2 ht
  have h2 : 0 < owed g (left M s.done) t := by
    rw [owed_pos]
    refine ⟨u, ?_, (mem_pre_iff g u t).2 h⟩
    unfold left
    rw [List.mem_filter]
    exact ⟨hu, by simpa using hd⟩
  rw [hi.count t] at this
  omega

/-- Everything is done in the end. -/
theorem over_done {g : Graph} {M : List Nat} {s : Exec}
    (ha : g.Acyclic) (hi : EInv g M s) (ho : s.Over)
    (hf : s.failed = []) : ∀ t, t ∈ M → t ∈ s.done := by
  obtain ⟨rank, hr⟩ := ha
  -- By induction on how much higher ranks can be.
  have hb : ∃ b, ∀ t ∈ M, rank t ≤ b := by
    clear hi
    induction M with
    | nil => exact ⟨0, nofun⟩
    | cons u M ih =>
      obtain ⟨b, hb⟩ := ih
      refine ⟨max b (rank u), fun t ht => ?_⟩
      rcases List.mem_cons.1 ht with rfl | ht
      · omega
      · have := hb t ht; omega
  obtain ⟨b, hb⟩ := hb
  have key : ∀ n t, t ∈ M → b - rank t ≤ n → t ∈ s.done := by
    intro n
    induction n with
    | zero =>
      intro t ht hn
      apply Classical.byContradiction
      intro hd
      have hns : t ∉ s.started := by
        unfold Exec.started; rw [ho.2, hf]; simpa using hd
      have hp := (hi.pos t).2 ⟨ht, hns⟩
      rw [hi.count t, ho.1, List.count_nil, Nat.zero_add, owed_pos] at hp
      obtain ⟨u, hu, hx⟩ := hp
      have hu' := (List.mem_filter.1 hu).1
      have h1 := hr u t ((mem_pre_iff g u t).1 hx)
      have h2 := hb u hu'
      omega
    | succ n ih =>
      intro t ht hn
      apply Classical.byContradiction
      intro hd
      have hns : t ∉ s.started := by
        unfold Exec.started; rw [ho.2, hf]; simpa using hd
      have hp := (hi.pos t).2 ⟨ht, hns⟩
      rw [hi.count t, ho.1, List.count_nil, Nat.zero_add, owed_pos] at hp
      obtain ⟨u, hu, hx⟩ := hp
      have hu' := List.mem_filter.1 hu
      have h1 := hr u t ((mem_pre_iff g u t).1 hx)
      have h2 := hb u hu'.1
      have := ih u hu'.1 (by omega)
      simp [this] at hu'
  exact fun t ht => key _ t ht (Nat.le_refl _)

end Verif.Clean
