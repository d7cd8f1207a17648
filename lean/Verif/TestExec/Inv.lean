import Verif.TestExec.Sem

namespace Verif.TestExec

variable {V : Type} {S : Script V} {root size : Nat} {v₀ : V} {kg : Bool} {n : Nat}
  {s s' : State V}

theorem Sem.init : Sem S root v₀ kg (init root v₀) where
  good m := by simp only [TestExec.init]; split <;> trivial
  exec m h := by
    have : m = root := by
      simp only [TestExec.init] at h; split at h
      · assumption
      · exact absurd rfl h
    subst this
    have : vis S v₀ (TestExec.init m v₀) m = v₀ := by
      unfold vis; split <;> rfl
    rw [this]; exact .root
  runs m v h := by simp [TestExec.init] at h
  tdowns m v h := by simp [TestExec.init] at h

theorem take_yes {s : State V} {n : Nat} {a : Alt V} {as cs} (h : s.st n = .loop (a :: as) cs)
    (hg : Good S v₀ kg s n (s.st n))
    (hy : ∀ p, a.cond = some p → (p (s.env n)).1 = .yes) :
    (a.empty = false → ∀ ns f, Picks (s.env n) [] cs ns f →
      Picks (s.env n) [] (S.chains n) ((s.started n ++ [a.node]) ++ ns) f) ∧
    (a.empty = true → ∀ ns f, Picks (s.env n) [] cs ns f →
      Picks (s.env n) [] (S.chains n) (s.started n ++ ns) f) := by
  rw [h] at hg
  refine ⟨fun ha ns f hp => ?_, fun ha ns f hp => ?_⟩
  · have := hg.2 _ _ (.take hy ha hp)
    rwa [List.append_assoc]
  · exact hg.2 _ _ (.takeEmpty hy ha hp)

theorem good_take {s : State V} {n : Nat} {a : Alt V} {as cs} (hn : a.node ≠ n)
    (h : s.st n = .loop (a :: as) cs)
    (hg : Good S v₀ kg s n (s.st n)) (hy : ∀ p, a.cond = some p → (p (s.env n)).1 = .yes) :
    Good S v₀ kg (take s n a cs) n ((take s n a cs).st n) := by
  have ⟨h1, h2⟩ := take_yes h hg hy
  rw [h] at hg
  unfold take
  split
  · rename_i ha
    simp only [upd_apply, if_pos]
    exact ⟨hg.1, fun ns f hp => h2 ha ns f hp⟩
  · rename_i ha
    simp only [upd_apply, if_neg (Ne.symm hn), if_pos]
    exact ⟨hg.1, fun ns f hp => by
      simp only [upd_apply, if_pos]; exact h1 (by simpa using ha) ns f hp⟩

theorem upd_same {α : Type} (e : Nat → α) (n : Nat) : upd e n (e n) = e := by
  funext m; rw [upd_apply]; split
  · subst m; rfl
  · rfl

theorem passes_of_good (hs : Sem S root v₀ kg s) {m : Nat} {b : Bool} (h : s.st m = .done b) :
    Passes S m (vis S v₀ s m) b := by
  have := hs.good m; rw [h] at this; exact this.1

theorem vis_inner (ht : S.Tree root size) {g c : Nat} (h : c ∈ S.inner g) :
    vis S v₀ s c = s.env g := by
  unfold vis; rw [(ht.parent g c h).1]

theorem passes_started (ht : S.Tree root size) (hi : SI S root s) (hs : Sem S root v₀ kg s)
    {g c : Nat} {b : Bool} (hc : c ∈ s.started g) (h : s.st c = .done b) :
    Passes S c (s.env g) b := by
  have := passes_of_good hs h
  rwa [vis_inner ht (hi.inner g c hc).1] at this

theorem vis_congr {S : Script V} {v₀ : V} {s s' : State V} {n : Nat}
    (h : ∀ g, S.parent n = some g → s'.env g = s.env g) : vis S v₀ s' n = vis S v₀ s n := by
  unfold vis; split
  · rfl
  · rename_i g hg; exact h g hg

theorem good_self (ht : S.Tree root size) (hi : SI S root s) (hp : S.Pure)
    (hs : Sem S root v₀ kg s) (h : Step S v₀ kg n s s') :
    Good S v₀ kg s' n (s'.st n) := by
  have hni : s.st n ≠ .idle := by
    rcases h.shape with ⟨y, l, v, hm', rfl⟩ | ⟨a, as, cs, v, h1, rfl⟩
    · exact hm'.from.1
    · rw [h1]; simp
  have hvis := vis_frame ht hi hp h hni
  have hgn := hs.good n
  cases h with
  | test h1 h2 =>
    simp only [upd_apply, if_pos]
    refine ⟨?_, ?_, ?_⟩
    · exact .test h2
    · intro h3; rw [h2] at h3; cases h3
    intro w hw
    cases hw with
    | exit h3 => rw [h2] at h3; cases h3
    | pass h3 => rw [h2] at h3; cases h3
  | setup h1 h2 =>
    simp only [upd_apply, if_pos]
    cases hr : (S.setup n (vis S v₀ s n)) with
    | mk r v =>
      rw [hr] at hvis
      cases r with
      | ok =>
        refine ⟨?_, ?_⟩
        · rw [hvis, hr]; simp [upd_apply]
        · intro ns f hpk
          have := hi.fresh n (.inr h1)
          simp only [this, List.nil_append]; exact hpk
      | exit =>
        refine .inl ⟨?_, hi.fresh n (.inr h1)⟩
        rw [hvis, hr]; simp [upd_apply]
      | fail =>
        refine ⟨?_, ?_, ?_⟩
        · rw [hvis]; exact .setupFail h2 hr
        · intro _; rw [hvis, hr]; simp [upd_apply]
        · rw [hvis]; intro w hw
          cases hw with
          | exit _ h3 => rw [hr] at h3; cases h3
          | pass _ h3 => rw [hr] at h3; cases h3
  | @chain cs h1 =>
    rw [h1] at hgn
    simp only [upd_apply, if_pos]
    rcases cs with _ | ⟨c, cs⟩
    · refine ⟨hgn.1, .inl ?_⟩
      have := hgn.2 _ _ .done
      rwa [List.append_nil] at this
    · simp only [nextChain]; split
      · rename_i hc; exact ⟨hgn.1, fun ns f hk => hgn.2 _ _ (.ignored hc hk)⟩
      · rename_i hc; exact ⟨hgn.1, fun ns f hk => hgn.2 _ _ (.chain (by simpa using hc) hk)⟩
  | always h1 h2 =>
    exact good_take (hi.idle_next ht h1).2.2.1 h1 hgn (by simp [h2])
  | @cond a as cs f h1 h2 =>
    obtain ⟨c, hc, ha⟩ := (hi.known n _ _ h1).1 a (by simp)
    have hpu := hp n c hc a ha f h2 (s.env n)
    cases hr : f (s.env n) with
    | mk r v =>
      rw [hr] at hpu; dsimp only at hpu; subst hpu
      have hrr : (f (s.env n)).1 = r := by rw [hr]
      have hg' := hgn; rw [h1] at hg'
      cases r with
      | yes =>
        simp only [condition, upd_same]
        exact good_take (hi.idle_next ht h1).2.2.1 h1 hgn (fun p hp' => by
          rw [h2] at hp'; cases hp'; exact hrr)
      | no =>
        simp only [condition, upd_same, upd_apply, if_pos]
        exact ⟨hg'.1, fun ns f' hk => hg'.2 _ _ (.no h2 hrr hk)⟩
      | exit =>
        simp only [condition, upd_same, upd_apply, if_pos]
        refine ⟨hg'.1, .inl ?_⟩
        have := hg'.2 _ _ (.exit h2 hrr)
        rwa [List.append_nil] at this
      | fail =>
        simp only [condition, upd_same, upd_apply, if_pos]
        refine ⟨hg'.1, .inl ?_⟩
        have := hg'.2 _ _ (.fail h2 hrr)
        rwa [List.append_nil] at this
  | @bail cs c h1 h2 h3 h4 =>
    rw [h1] at hgn
    simp only [upd_apply, if_pos]
    refine ⟨hgn.1, .inr ⟨rfl, h2, ?_, c, h3, ?_⟩⟩
    · obtain ⟨ns, f, hk⟩ := picks_total (s.env n) cs []
      exact ⟨ns, f, hgn.2 _ _ hk⟩
    · show upd s.st n _ c = _
      rw [upd_apply, if_neg]
      · exact h4
      · intro he; rw [he, h1] at h4; cases h4
  | passed h1 h2 =>
    rw [h1] at hgn
    simp only [upd_apply, if_pos]
    refine .inr ⟨hgn.1, ?_, ?_⟩
    · rcases hgn.2 with h3 | ⟨h3, _⟩
      · exact h3
      · cases h3
    · intro c hc
      show upd s.st n _ c = _
      have := h2 c hc
      rw [upd_apply, if_neg]
      · exact this
      · intro he; rw [he, h1] at this; cases this
  | @failed f c h1 h2 h3 =>
    rw [h1] at hgn
    simp only [upd_apply, if_pos]
    have hnt := hi.notTest n (.inr (.inl ⟨_, h1⟩))
    -- An inner one or a condition has failed
    have hfail : (∃ ns, Picks (s.env n) [] (S.chains n) ns true) ∨
        ∃ ns f c, Picks (s.env n) [] (S.chains n) ns f ∧ c ∈ ns ∧ Passes S c (s.env n) false := by
      rcases h3 with rfl | ⟨h3, h4⟩
      · rcases hgn.2 with h5 | ⟨_, _, ⟨ns, f, h5⟩, c, h6, h7⟩
        · exact .inl ⟨_, h5⟩
        · exact .inr ⟨_, f, c, h5, List.mem_append_left _ h6, passes_started ht hi hs h6 h7⟩
      · have h5 := passes_started ht hi hs h3 h4
        rcases hgn.2 with h6 | ⟨_, _, ⟨ns, f, h6⟩, _⟩
        · exact .inr ⟨_, _, c, h6, h3, h5⟩
        · exact .inr ⟨_, _, c, h6, List.mem_append_left _ h3, h5⟩
    refine ⟨?_, ?_, ?_⟩
    · rcases hfail with ⟨ns, h4⟩ | ⟨ns, f, c, h4, h5, h6⟩
      · exact .condFail hnt hgn.1 h4
      · exact .innerFail hnt hgn.1 h4 h5 h6
    · intro _
      refine ⟨by show (S.setup n (vis S v₀ s n)).2 = _; rw [hgn.1], fun hk _ => ?_⟩
      rcases hgn.2 with h6 | ⟨_, h6, _⟩
      · exact ⟨_, h6⟩
      · rw [hk] at h6; cases h6
    · intro w hw
      cases hw with
      | exit _ h4 => have := hgn.1.symm.trans h4; cases this
      | pass _ h4 h5 h6 =>
        have := hgn.1.symm.trans h4; cases this
        exfalso
        rcases hfail with ⟨ns, h7⟩ | ⟨ns, f, c, h7, h8, h9⟩
        · have := (picks_unique h5 h7).2; cases this
        · rw [(picks_unique h5 h7).1] at h8
          have := passes_unique h9 (h6 c h8); cases this
  | tdown h1 =>
    rw [h1] at hgn
    simp only [upd_apply, if_pos]
    have hnt := hi.notTest n (.inr (.inr h1))
    have htd : (S.setup n (vis S v₀ s n)).2 = s.env n := by
      rcases hgn with ⟨h2, _⟩ | ⟨h2, _⟩ <;> rw [h2]
    refine ⟨?_, ?_, ?_⟩
    · rcases hgn with ⟨h2, _⟩ | ⟨h2, h3, h4⟩
      · exact .setupExit hnt h2
      · exact .pass hnt h2 h3 (fun c hc => passes_started ht hi hs hc (h4 c hc))
    · intro _
      refine ⟨htd, fun _ hok => ?_⟩
      rcases hgn with ⟨h2, _⟩ | ⟨h2, h3, h4⟩
      · change (S.setup n (vis S v₀ s n)).1 = _ at hok; rw [h2] at hok; cases hok
      · exact ⟨_, h3⟩
    · intro w hw
      have : w = s.env n := by
        cases hw with
        | exit _ h4 => rw [← htd]; change S.setup n (vis S v₀ s n) = _ at h4; rw [h4]
        | pass _ h4 => rw [← htd]; change S.setup n (vis S v₀ s n) = _ at h4; rw [h4]
      rw [this]; exact List.mem_cons_self

theorem log_step (h : Step S v₀ kg n s s') {e : Event V} (he : e ∈ s'.log) :
    e ∈ s.log ∨ (e = .run n (vis S v₀ s n) ∧ s.st n = .ready) ∨
      (e = .tdown n (s.env n) ∧ s.st n = .tdown) := by
  cases h with
  | test h1 => simp at he; exact he.symm.imp id (fun h => .inl ⟨h, h1⟩)
  | setup h1 => simp at he; exact he.symm.imp id (fun h => .inl ⟨h, h1⟩)
  | tdown h1 => simp at he; exact he.symm.imp id (fun h => .inr ⟨h, h1⟩)
  | always h1 h2 => left; unfold take at he; split at he <;> exact he
  | @cond a as cs f h1 h2 =>
    left
    rcases hq : f (s.env n) with ⟨r, v⟩
    rw [hq] at he
    cases r with
    | yes => unfold condition take at he; dsimp only at he; split at he <;> exact he
    | _ => exact he
  | _ => exact .inl he

/-- Which scope is started by a step. -/
theorem started_step (h : Step S v₀ kg n s s') {m : Nat} (hm : s.st m = .idle)
    (hm' : s'.st m ≠ .idle) :
    ∃ a as cs, m = a.node ∧ s.st n = .loop (a :: as) cs ∧ a.empty = false ∧
      ∀ p, a.cond = some p → (p (s.env n)).1 = .yes := by
  have key : ∀ y, (s.st n ≠ .idle) → upd s.st n y m ≠ .idle → False := by
    intro y hn hu; rw [upd_apply] at hu; split at hu
    · rename_i he; subst he; exact hn hm
    · exact hu hm
  cases h with
  | test h1 => exact (key _ (by rw [h1]; simp) hm').elim
  | setup h1 => exact (key _ (by rw [h1]; simp) hm').elim
  | chain h1 => exact (key _ (by rw [h1]; simp) hm').elim
  | bail h1 => exact (key _ (by rw [h1]; simp) hm').elim
  | passed h1 => exact (key _ (by rw [h1]; simp) hm').elim
  | failed h1 => exact (key _ (by rw [h1]; simp) hm').elim
  | tdown h1 => exact (key _ (by rw [h1]; simp) hm').elim
  | @always a as cs h1 h2 =>
    unfold take at hm'; split at hm'
    · exact (key _ (by rw [h1]; simp) hm').elim
    · rename_i ha
      refine ⟨a, as, cs, ?_, h1, by simpa using ha, by simp [h2]⟩
      rcases Classical.em (m = a.node) with he | he
      · exact he
      · simp only [upd_apply, if_neg he] at hm'
        exact (key _ (by rw [h1]; simp) (by rw [upd_apply]; exact hm')).elim
  | @cond a as cs f h1 h2 =>
    rcases hq : f (s.env n) with ⟨r, v⟩
    rw [hq] at hm'
    cases r with
    | yes =>
      unfold condition take at hm'; dsimp only at hm'; split at hm'
      · exact (key _ (by rw [h1]; simp) hm').elim
      · rename_i ha
        refine ⟨a, as, cs, ?_, h1, by simpa using ha, fun p hp => by
          rw [h2] at hp; cases hp; rw [hq]⟩
        rcases Classical.em (m = a.node) with he | he
        · exact he
        · simp only [upd_apply, if_neg he] at hm'
          exact (key _ (by rw [h1]; simp) (by rw [upd_apply]; exact hm')).elim
    | no => exact (key _ (by rw [h1]; simp) hm').elim
    | exit => exact (key _ (by rw [h1]; simp) hm').elim
    | fail => exact (key _ (by rw [h1]; simp) hm').elim

theorem Sem.step (ht : S.Tree root size) (hi : SI S root s) (hp : S.Pure)
    (hs : Sem S root v₀ kg s) (h : Step S v₀ kg n s s') : Sem S root v₀ kg s' where
  good m := by
    rcases Classical.em (m = n) with he | he
    · subst he; exact good_self ht hi hp hs h
    · exact good_frame ht hi hp h he (hs.good m)
  exec m hm := by
    rcases Classical.em (s.st m = .idle) with he | he
    · obtain ⟨a, as, cs, rfl, h1, h2, h3⟩ := started_step h he hm
      have hin := (hi.idle_next ht h1).2.1
      have hg := hs.good n
      have hy := (take_yes h1 hg h3).1 h2
      rw [h1] at hg
      obtain ⟨ns, f, hk⟩ := picks_total (s.env n) cs []
      rw [vis_inner ht hin, env_frame hi hp h (by rw [h1]; simp)]
      exact .inner (hs.exec n (by rw [h1]; simp)) (hi.notTest n (.inl ⟨_, _, h1⟩)) hg.1
        (hy ns f hk) (by simp)
    · rw [vis_frame ht hi hp h he]; exact hs.exec m he
  runs m v hv := by
    rcases log_step h hv with h1 | ⟨h1, h2⟩ | ⟨h1, _⟩
    · rw [vis_frame ht hi hp h ((hi.runs m).mp ⟨v, h1⟩).1]; exact hs.runs m v h1
    · cases h1; rw [vis_frame ht hi hp h (by rw [h2]; simp)]
    · cases h1
  tdowns m w hw := by
    rcases log_step h hw with h1 | ⟨h1, _⟩ | ⟨h1, h2⟩
    · obtain ⟨b, hb⟩ := hi.tdowns m w h1
      rw [vis_frame ht hi hp h (by rw [hb]; simp)]; exact hs.tdowns m w h1
    · cases h1
    · simp only [Event.tdown.injEq] at h1
      obtain ⟨rfl, rfl⟩ := h1
      rw [vis_frame ht hi hp h (by rw [h2]; simp)]
      have hg := hs.good m
      rw [h2] at hg
      have hnt := hi.notTest m (.inr (.inr h2))
      rcases hg with ⟨h3, _⟩ | ⟨h3, h4, h5⟩
      · exact .exit hnt h3
      · exact .pass hnt h3 h4 (fun c hc => passes_started ht hi hs hc (h5 c hc))

theorem Sem.reach (ht : S.Tree root size) (hp : S.Pure) {k : Nat}
    (h : Reach S root v₀ kg k s) : Sem S root v₀ kg s := by
  induction h with
  | init => exact .init
  | step h0 h ih => exact ih.step ht (SI.reach ht h0) hp h

end Verif.TestExec
