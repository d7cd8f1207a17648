import Verif.TestExec.Lemmas

namespace Verif.TestExec

variable {V : Type}

theorem picks_total (v : V) (cs : List (Chain V)) : ∀ cur, ∃ ns f, Picks v cur cs ns f := by
  induction cs with
  | nil =>
    intro cur
    induction cur with
    | nil => exact ⟨_, _, .done⟩
    | cons a as ih => exact aux a as [] ih ⟨_, _, .done⟩
  | cons c cs ihc =>
    have h0 : ∃ ns f, Picks v [] (c :: cs) ns f := by
      rcases Bool.eq_false_or_eq_true c.ignored with h | h
      · obtain ⟨ns, f, h1⟩ := ihc []; exact ⟨ns, f, .ignored h h1⟩
      · obtain ⟨ns, f, h1⟩ := ihc c.alts; exact ⟨ns, f, .chain h h1⟩
    intro cur
    induction cur with
    | nil => exact h0
    | cons a as ih => exact aux a as (c :: cs) ih h0
where
  aux (a : Alt V) (as : List (Alt V)) (cs : List (Chain V)) (ih : ∃ ns f, Picks v as cs ns f)
      (h0 : ∃ ns f, Picks v [] cs ns f) : ∃ ns f, Picks v (a :: as) cs ns f := by
    obtain ⟨ns, f, h0⟩ := h0
    have hyes : (∀ p, a.cond = some p → (p v).1 = .yes) → ∃ ns f, Picks v (a :: as) cs ns f := by
      intro hc
      rcases Bool.eq_false_or_eq_true a.empty with h | h
      · exact ⟨_, _, .takeEmpty hc h h0⟩
      · exact ⟨_, _, .take hc h h0⟩
    cases hc : a.cond with
    | none => exact hyes (by simp [hc])
    | some p =>
      cases hr : (p v).1 with
      | yes => exact hyes (by intro q hq; rw [hc] at hq; cases hq; exact hr)
      | no => obtain ⟨ns, f, h1⟩ := ih; exact ⟨ns, f, .no hc hr h1⟩
      | exit => exact ⟨_, _, .exit hc hr⟩
      | fail => exact ⟨_, _, .fail hc hr⟩

theorem picks_unique {v : V} {cur cs ns f} (h : Picks v cur cs ns f) :
    ∀ {ns' f'}, Picks v cur cs ns' f' → ns' = ns ∧ f' = f := by
  induction h with
  | done => intro ns' f' h; cases h; exact ⟨rfl, rfl⟩
  | ignored h1 _ ih => intro ns' f' h; cases h <;> grind
  | chain h1 _ ih => intro ns' f' h; cases h <;> grind
  | no h1 h2 _ ih =>
    intro ns' f' h
    cases h with
    | no _ _ h => exact ih h
    | take h => have := h _ h1; rw [h2] at this; cases this
    | takeEmpty h => have := h _ h1; rw [h2] at this; cases this
    | exit h3 h4 => rw [h1] at h3; cases h3; rw [h2] at h4; cases h4
    | fail h3 h4 => rw [h1] at h3; cases h3; rw [h2] at h4; cases h4
  | take h1 h2 _ ih =>
    intro ns' f' h
    cases h with
    | no h3 h4 => have := h1 _ h3; rw [h4] at this; cases this
    | take _ _ h => have := ih h; grind
    | takeEmpty _ h => rw [h2] at h; cases h
    | exit h3 h4 => have := h1 _ h3; rw [h4] at this; cases this
    | fail h3 h4 => have := h1 _ h3; rw [h4] at this; cases this
  | takeEmpty h1 h2 _ ih =>
    intro ns' f' h
    cases h with
    | no h3 h4 => have := h1 _ h3; rw [h4] at this; cases this
    | take _ h => rw [h2] at h; cases h
    | takeEmpty _ _ h => exact ih h
    | exit h3 h4 => have := h1 _ h3; rw [h4] at this; cases this
    | fail h3 h4 => have := h1 _ h3; rw [h4] at this; cases this
  | exit h1 h2 =>
    intro ns' f' h
    cases h with
    | no h3 h4 => rw [h1] at h3; cases h3; rw [h2] at h4; cases h4
    | take h => have := h _ h1; rw [h2] at this; cases this
    | takeEmpty h => have := h _ h1; rw [h2] at this; cases this
    | exit => exact ⟨rfl, rfl⟩
    | fail h3 h4 => rw [h1] at h3; cases h3; rw [h2] at h4; cases h4
  | fail h1 h2 =>
    intro ns' f' h
    cases h with
    | no h3 h4 => rw [h1] at h3; cases h3; rw [h2] at h4; cases h4
    | take h => have := h _ h1; rw [h2] at this; cases this
    | takeEmpty h => have := h _ h1; rw [h2] at this; cases this
    | exit h3 h4 => rw [h1] at h3; cases h3; rw [h2] at h4; cases h4
    | fail => exact ⟨rfl, rfl⟩

theorem picks_nodes {v : V} {cur cs ns f} (h : Picks v cur cs ns f) :
    ∀ c ∈ ns, c ∈ nodes cur cs := by
  induction h <;> simp_all [nodes] <;> grind

theorem passes_unique {S : Script V} {n : Nat} {v : V} {b : Bool} (h : Passes S n v b) :
    ∀ {b'}, Passes S n v b' → b' = b := by
  induction h with
  | test h => intro b' h'; cases h' <;> grind
  | setupFail h h1 => intro b' h'; cases h' <;> grind
  | setupExit h h1 => intro b' h'; cases h' <;> grind
  | pass h h1 h2 h3 ih =>
    intro b' h'
    cases h' with
    | pass _ h4 => rw [h1] at h4; cases h4; rfl
    | condFail _ h4 h5 => rw [h1] at h4; cases h4; have := picks_unique h2 h5; grind
    | innerFail _ h4 h5 h6 h7 =>
      rw [h1] at h4; cases h4
      have := picks_unique h2 h5
      rw [this.1] at h6
      have := ih _ h6 h7
      cases this
    | _ => grind
  | condFail h h1 h2 =>
    intro b' h'
    cases h' with
    | pass _ h4 h5 => rw [h1] at h4; cases h4; have := picks_unique h2 h5; grind
    | _ => grind
  | innerFail h h1 h2 h3 h4 ih =>
    intro b' h'
    cases h' with
    | pass _ h5 h6 h7 =>
      rw [h1] at h5; cases h5
      have := picks_unique h6 h2
      rw [this.1] at h3
      have := ih (h7 _ h3)
      cases this
    | _ => grind

/-- What is true of a scope in a state if conditions don't set variables. -/
def Good (S : Script V) (v₀ : V) (kg : Bool) (s : State V) (m : Nat) : Status V → Prop
  | .idle => True
  | .ready => True
  | .loop cur cs => S.setup m (vis S v₀ s m) = (.ok, s.env m) ∧
      ∀ ns f, Picks (s.env m) cur cs ns f →
        Picks (s.env m) [] (S.chains m) (s.started m ++ ns) f
  | .wait f => S.setup m (vis S v₀ s m) = (.ok, s.env m) ∧
      (Picks (s.env m) [] (S.chains m) (s.started m) f ∨
        (f = true ∧ kg = false ∧ (∃ ns f, Picks (s.env m) [] (S.chains m) (s.started m ++ ns) f) ∧
          ∃ c ∈ s.started m, s.st c = .done false))
  | .tdown => (S.setup m (vis S v₀ s m) = (.exit, s.env m) ∧ s.started m = []) ∨
      (S.setup m (vis S v₀ s m) = (.ok, s.env m) ∧
        Picks (s.env m) [] (S.chains m) (s.started m) false ∧
        ∀ c ∈ s.started m, s.st c = .done true)
  | .done b => Passes S m (vis S v₀ s m) b ∧
      (S.isTest m = false → (S.setup m (vis S v₀ s m)).2 = s.env m ∧
        (kg = true → (S.setup m (vis S v₀ s m)).1 = .ok →
          ∃ f, Picks (s.env m) [] (S.chains m) (s.started m) f)) ∧
      ∀ w, Torn S m (vis S v₀ s m) w → .tdown m w ∈ s.log

structure Sem (S : Script V) (root : Nat) (v₀ : V) (kg : Bool) (s : State V) : Prop where
  good : ∀ m, Good S v₀ kg s m (s.st m)
  exec : ∀ m, s.st m ≠ .idle → Executed S root v₀ m (vis S v₀ s m)
  runs : ∀ m v, .run m v ∈ s.log → v = vis S v₀ s m
  tdowns : ∀ m w, .tdown m w ∈ s.log → Torn S m (vis S v₀ s m) w

section frame
variable {S : Script V} {root size : Nat} {v₀ : V} {kg : Bool} {n : Nat} {s s' : State V}

theorem take_env {s : State V} {a cs} : (take s n a cs).env = s.env := by
  unfold take; split <;> rfl

theorem take_st {s : State V} {a cs} (ha : a.empty = false) :
    take s n a cs = ⟨upd (upd s.st n (.loop [] cs)) a.node .ready, s.env,
      upd s.started n (s.started n ++ [a.node]), s.log⟩ := by
  unfold take; simp [ha]

theorem env_frame (hi : SI S root s) (hp : S.Pure) (h : Step S v₀ kg n s s') {g : Nat}
    (hg : s.st g ≠ .ready) : s'.env g = s.env g := by
  cases h with
  | setup h1 h2 =>
    show upd s.env n _ g = _
    rw [upd_apply, if_neg]; intro he; rw [he] at hg; exact hg h1
  | always h1 h2 => rw [take_env]
  | @cond a as cs f h1 h2 =>
    obtain ⟨c, hc, ha⟩ := (hi.known n _ _ h1).1 a (by simp)
    have := hp n c hc a ha f h2 (s.env n)
    have hu : upd s.env n (f (s.env n)).2 g = s.env g := by
      rw [upd_apply, this]; split
      · rename_i he; rw [he]
      · rfl
    have : (condition s n a as cs (f (s.env n))).env = upd s.env n (f (s.env n)).2 := by
      rcases f (s.env n) with ⟨r, v⟩
      cases r <;> simp [condition, take_env]
    rw [this, hu]
  | _ => rfl

theorem vis_frame (ht : S.Tree root size) (hi : SI S root s) (hp : S.Pure)
    (h : Step S v₀ kg n s s') {m : Nat} (hm : s.st m ≠ .idle) : vis S v₀ s' m = vis S v₀ s m := by
  unfold vis
  cases hq : S.parent m with
  | none => rfl
  | some g =>
    refine env_frame hi hp h (fun hr => ?_)
    have := hi.parent ht hm hq
    rw [hi.fresh g (.inr hr)] at this; cases this

theorem st_frame (ht : S.Tree root size) (hi : SI S root s) (h : Step S v₀ kg n s s') {m : Nat}
    (hm : m ≠ n) : (s'.st m = s.st m ∧ s'.started m = s.started m) ∨
      (s.st m = .idle ∧ s'.st m = .ready) := by
  rcases h.shape with ⟨y, l, v, hm', rfl⟩ | ⟨a, as, cs, v, h1, rfl⟩
  · exact .inl ⟨by simp [upd_apply, hm], rfl⟩
  · rcases Classical.em (m = a.node) with he | he
    · right; rw [he]; exact ⟨(hi.idle_next ht h1).1, by simp [upd_apply]⟩
    · left; simp [upd_apply, hm, he]

theorem log_frame (h : Step S v₀ kg n s s') {e : Event V} (he : e ∈ s.log) : e ∈ s'.log := by
  rcases h.shape with ⟨y, l, v, hm', rfl⟩ | ⟨a, as, cs, v, h1, rfl⟩
  · exact List.mem_append_right _ he
  · exact he

theorem done_frame (ht : S.Tree root size) (hi : SI S root s) (h : Step S v₀ kg n s s') {m : Nat}
    {b : Bool} (hm : s.st m = .done b) : s'.st m = .done b := by
  have hmn : m ≠ n := by
    intro he; subst he
    rcases h.shape with ⟨y, l, v, hm', rfl⟩ | ⟨a, as, cs, v, h1, rfl⟩
    · exact hm'.from.2.1 _ hm
    · rw [hm] at h1; cases h1
  rcases st_frame ht hi h hmn with h1 | h1
  · rw [h1.1]; exact hm
  · rw [hm] at h1; cases h1.1

theorem good_frame (ht : S.Tree root size) (hi : SI S root s) (hp : S.Pure)
    (h : Step S v₀ kg n s s') {m : Nat} (hm : m ≠ n) (hg : Good S v₀ kg s m (s.st m)) :
    Good S v₀ kg s' m (s'.st m) := by
  rcases st_frame ht hi h hm with ⟨h1, h2⟩ | ⟨_, h2⟩
  · rw [h1]
    cases hs : s.st m with
    | idle => trivial
    | ready => trivial
    | loop cur cs =>
      rw [hs] at hg
      have hv := vis_frame ht hi hp h (m := m) (by rw [hs]; simp)
      have he := env_frame hi hp h (g := m) (by rw [hs]; simp)
      simp only [Good, hv, he, h2]; exact hg
    | wait f =>
      rw [hs] at hg
      have hv := vis_frame ht hi hp h (m := m) (by rw [hs]; simp)
      have he := env_frame hi hp h (g := m) (by rw [hs]; simp)
      simp only [Good, hv, he, h2]
      refine ⟨hg.1, hg.2.imp id ?_⟩
      rintro ⟨h3, h4, h5, c, h6, h7⟩
      exact ⟨h3, h4, h5, c, h6, done_frame ht hi h h7⟩
    | tdown =>
      rw [hs] at hg
      have hv := vis_frame ht hi hp h (m := m) (by rw [hs]; simp)
      have he := env_frame hi hp h (g := m) (by rw [hs]; simp)
      simp only [Good, hv, he, h2]
      refine hg.imp id ?_
      rintro ⟨h3, h4, h5⟩
      exact ⟨h3, h4, fun c hc => done_frame ht hi h (h5 c hc)⟩
    | done b =>
      rw [hs] at hg
      have hv := vis_frame ht hi hp h (m := m) (by rw [hs]; simp)
      have he := env_frame hi hp h (g := m) (by rw [hs]; simp)
      simp only [Good, hv, he, h2]
      exact ⟨hg.1, hg.2.1, fun w hw => log_frame h (hg.2.2 w hw)⟩
  · rw [h2]; trivial

end frame

end Verif.TestExec
