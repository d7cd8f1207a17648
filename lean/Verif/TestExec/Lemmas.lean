import Verif.TestExec.Model

namespace Verif.TestExec

variable {V : Type}

theorem upd_apply {α : Type} (f : Nat → α) (n : Nat) (x : α) (m : Nat) :
    upd f n x m = if m = n then x else f m := rfl

/-- The scopes that are left to be considered. -/
def nodes (cur : List (Alt V)) (cs : List (Chain V)) : List Nat :=
  cur.map Alt.node ++ (cs.map fun c => c.alts.map Alt.node).flatten

/-- What holds of the states regardless of what the conditions do. -/
structure SI (S : Script V) (root : Nat) (s : State V) : Prop where
  top : s.st root ≠ .idle
  idle : ∀ n, n ≠ root → s.st n ≠ .idle → ∃ g, n ∈ s.started g
  inner : ∀ g, ∀ c ∈ s.started g, c ∈ S.inner g ∧ s.st c ≠ .idle
  phase : ∀ g, ∀ c ∈ s.started g, (∃ cur cs, s.st g = .loop cur cs) ∨ (∃ f, s.st g = .wait f) ∨
    ∃ b, s.st c = .done b
  fresh : ∀ g, s.st g = .idle ∨ s.st g = .ready → s.started g = []
  notTest : ∀ g, (∃ cur cs, s.st g = .loop cur cs) ∨ (∃ f, s.st g = .wait f) ∨ s.st g = .tdown →
    S.isTest g = false
  loop : ∀ g cur cs, s.st g = .loop cur cs →
    ∃ pre, S.inner g = pre ++ nodes cur cs ∧ ∀ c ∈ s.started g, c ∈ pre
  known : ∀ g cur cs, s.st g = .loop cur cs →
    (∀ a ∈ cur, ∃ c ∈ S.chains g, a ∈ c.alts) ∧ ∀ c ∈ cs, c ∈ S.chains g
  runs : ∀ n, (∃ v, .run n v ∈ s.log) ↔ (s.st n ≠ .idle ∧ s.st n ≠ .ready)
  tdowns : ∀ n v, .tdown n v ∈ s.log → ∃ b, s.st n = .done b
  nested : Nested S s.log

/-- What a step does to a scope, other than starting another one. -/
inductive Move (S : Script V) (s : State V) (n : Nat) : Status V → List (Event V) → Prop
  | test {b v} : s.st n = .ready → S.isTest n = true → Move S s n (.done b) [.run n v]
  | setup {r v} : s.st n = .ready → S.isTest n = false → Move S s n (afterSetup S n r) [.run n v]
  | chain {cs} : s.st n = .loop [] cs → Move S s n (nextChain cs) []
  | empty {a as cs} : s.st n = .loop (a :: as) cs → Move S s n (.loop [] cs) []
  | no {a as cs} : s.st n = .loop (a :: as) cs → Move S s n (.loop as cs) []
  | stop {cur cs f} : s.st n = .loop cur cs → Move S s n (.wait f) []
  | passed {f} : s.st n = .wait f → (∀ c ∈ s.started n, ∃ b, s.st c = .done b) →
      Move S s n .tdown []
  | failed {f} : s.st n = .wait f → (∀ c ∈ s.started n, ∃ b, s.st c = .done b) →
      Move S s n (.done false) []
  | tdown {b v} : s.st n = .tdown → Move S s n (.done b) [.tdown n v]

/-- The two kinds of steps. -/
theorem Step.shape {S : Script V} {v₀ : V} {kg : Bool} {n : Nat} {s s' : State V}
    (h : Step S v₀ kg n s s') :
    (∃ y l v, Move S s n y l ∧
      s' = ⟨upd s.st n y, upd s.env n v, s.started, l ++ s.log⟩) ∨
    (∃ a as cs v, s.st n = .loop (a :: as) cs ∧
      s' = ⟨upd (upd s.st n (.loop [] cs)) a.node .ready, upd s.env n v,
        upd s.started n (s.started n ++ [a.node]), s.log⟩) := by
  have hid : ∀ (e : Nat → V), e = upd e n (e n) := by
    intro e; funext m; rw [upd_apply]; split
    · subst m; rfl
    · rfl
  have key : ∀ y l, Move S s n y l → ∃ y' l' v, Move S s n y' l' ∧
      (⟨upd s.st n y, s.env, s.started, l ++ s.log⟩ : State V) =
        ⟨upd s.st n y', upd s.env n v, s.started, l' ++ s.log⟩ :=
    fun y l h => ⟨y, l, s.env n, h, by rw [← hid]⟩
  cases h with
  | test h1 h2 => exact .inl (key (.done _) [.run n _] (.test h1 h2))
  | setup h1 h2 => exact .inl ⟨_, [.run n _], _, .setup h1 h2, rfl⟩
  | chain h1 => exact .inl (key (nextChain _) [] (.chain h1))
  | always h1 h2 =>
    unfold take; split
    · exact .inl (key (.loop [] _) [] (.empty h1))
    · refine .inr ⟨_, _, _, s.env n, h1, ?_⟩; rw [← hid]
  | @cond a as cs f h1 h2 =>
    rcases f (s.env n) with ⟨r, v⟩
    cases r with
    | yes =>
      unfold condition take; dsimp only; split
      · exact .inl ⟨.loop [] cs, [], v, .empty h1, rfl⟩
      · exact .inr ⟨_, _, _, v, h1, rfl⟩
    | no => exact .inl ⟨.loop as cs, [], v, .no h1, rfl⟩
    | exit => exact .inl ⟨.wait false, [], v, .stop h1, rfl⟩
    | fail => exact .inl ⟨.wait true, [], v, .stop h1, rfl⟩
  | bail h1 => exact .inl (key (.wait true) [] (.stop h1))
  | passed h1 h2 => exact .inl (key .tdown [] (.passed h1 (fun c hc => ⟨_, h2 c hc⟩)))
  | failed h1 h2 => exact .inl (key (.done false) [] (.failed h1 h2))
  | tdown h1 => exact .inl (key (.done _) [.tdown n _] (.tdown h1))

theorem SI.init {S : Script V} {root : Nat} {v₀ : V} : SI S root (init root v₀) where
  top := by simp [TestExec.init]
  idle := by intro n h; simp [TestExec.init, h]
  inner := by intro g c h; simp [TestExec.init] at h
  phase := by intro g c h; simp [TestExec.init] at h
  fresh := by intro g _; rfl
  notTest := by
    intro g h
    have : (TestExec.init root v₀).st g = .ready ∨ (TestExec.init root v₀).st g = .idle := by
      simp only [TestExec.init]; split <;> simp
    grind
  loop := by
    intro g cur cs h; simp only [TestExec.init] at h; split at h <;> simp at h
  known := by
    intro g cur cs h; simp only [TestExec.init] at h; split at h <;> simp at h
  runs := by
    intro n; constructor
    · rintro ⟨v, h⟩; simp [TestExec.init] at h
    · intro ⟨h1, h2⟩; simp only [TestExec.init] at h1 h2; split at h1 <;> simp_all
  tdowns := by intro n v h; simp [TestExec.init] at h
  nested := by intro l₁ e l₂ h; simp [TestExec.init] at h

theorem Nested.run {S : Script V} {log : List (Event V)} (h : Nested S log) {n : Nat} {v : V}
    (h1 : ∀ w, .run n w ∉ log) (h2 : ∀ w, .tdown n w ∉ log)
    (h3 : ∀ g, S.parent n = some g → (∃ w, .run g w ∈ log) ∧ ∀ w, .tdown g w ∉ log) :
    Nested S (.run n v :: log) := by
  intro l₁ e l₂ he
  rcases l₁ with _ | ⟨x, l₁⟩
  · simp only [List.nil_append, List.cons.injEq] at he
    obtain ⟨rfl, rfl⟩ := he
    refine ⟨?_, ?_⟩
    · intro m w hm; simp only [Event.run.injEq] at hm; obtain ⟨rfl, rfl⟩ := hm
      exact ⟨h1, h2, h3⟩
    · intro m w hm; cases hm
  · simp only [List.cons_append, List.cons.injEq] at he
    exact h l₁ e l₂ he.2

theorem Nested.tdown {S : Script V} {log : List (Event V)} (h : Nested S log) {n : Nat} {v : V}
    (h1 : ∃ w, .run n w ∈ log) (h2 : ∀ w, .tdown n w ∉ log)
    (h3 : ∀ g, S.parent n = some g → ∀ w, .tdown g w ∉ log) :
    Nested S (.tdown n v :: log) := by
  intro l₁ e l₂ he
  rcases l₁ with _ | ⟨x, l₁⟩
  · simp only [List.nil_append, List.cons.injEq] at he
    obtain ⟨rfl, rfl⟩ := he
    refine ⟨?_, ?_⟩
    · intro m w hm; cases hm
    · intro m w hm; simp only [Event.tdown.injEq] at hm; obtain ⟨rfl, rfl⟩ := hm
      exact ⟨h1, h2, h3⟩
  · simp only [List.cons_append, List.cons.injEq] at he
    exact h l₁ e l₂ he.2

theorem Move.from {S : Script V} {s : State V} {n y l} (h : Move S s n y l) :
    s.st n ≠ .idle ∧ (∀ b, s.st n ≠ .done b) ∧ y ≠ .idle ∧ y ≠ .ready := by
  cases h with
  | @setup r v h => cases r <;> simp [h, afterSetup]
  | @chain cs h =>
    rcases cs with _ | ⟨c, cs⟩
    · simp [h, nextChain]
    · simp only [h, nextChain]; split <;> simp
  | _ => simp_all

theorem nodes_nextChain {cs : List (Chain V)} {cur' cs'} (h : nextChain cs = .loop cur' cs') :
    ∃ pre, nodes [] cs = pre ++ nodes cur' cs' := by
  rcases cs with _ | ⟨c, cs⟩
  · simp [nextChain] at h
  · simp only [nextChain] at h
    split at h <;> cases h
    · exact ⟨c.alts.map Alt.node, by simp [nodes]⟩
    · exact ⟨[], by simp [nodes]⟩

/-- The rest of the loop is a part of what it was. -/
theorem Move.loop {S : Script V} {s : State V} {n y l} (h : Move S s n y l) {cur' cs'}
    (hy : y = .loop cur' cs') :
    (s.st n = .ready ∧ cur' = [] ∧ cs' = S.chains n) ∨
    (∃ cur cs, s.st n = .loop cur cs ∧ (∃ pre, nodes cur cs = pre ++ nodes cur' cs') ∧
      (∀ c ∈ cs', c ∈ cs) ∧ ∀ a ∈ cur', a ∈ cur ∨ ∃ c ∈ cs, a ∈ c.alts) := by
  cases h with
  | @setup r v h => cases r <;> simp_all [afterSetup]
  | @chain cs h =>
    refine .inr ⟨_, _, h, nodes_nextChain hy, ?_⟩
    rcases cs with _ | ⟨c, cs⟩
    · simp [nextChain] at hy
    · simp only [nextChain] at hy
      split at hy <;> cases hy <;> grind
  | @empty a as cs h => cases hy; exact .inr ⟨_, _, h, ⟨a.node :: as.map Alt.node, by simp [nodes]⟩, by grind⟩
  | @no a as cs h => cases hy; exact .inr ⟨_, _, h, ⟨[a.node], by simp [nodes]⟩, by grind⟩
  | _ => simp_all

theorem Move.log {S : Script V} {s : State V} {n y l} (h : Move S s n y l) :
    (l = [] ∧ s.st n ≠ .ready) ∨ (∃ v, l = [.run n v] ∧ s.st n = .ready) ∨
    (∃ v b, l = [.tdown n v] ∧ s.st n = .tdown ∧ y = .done b) := by
  cases h <;> grind

theorem Move.phase {S : Script V} {s : State V} {n y l} (h : Move S s n y l) (hs : s.started n ≠ [])
    (hi : s.st n = .ready → s.started n = []) :
    (∃ cur cs, y = .loop cur cs) ∨ (∃ f, y = .wait f) ∨ s.st n = .tdown ∨
      (∀ c ∈ s.started n, ∃ b, s.st c = .done b) := by
  cases h with
  | @chain cs h =>
    rcases cs with _ | ⟨c, cs⟩
    · simp [nextChain]
    · simp only [nextChain]; split <;> simp
  | _ => grind

theorem Move.notTest {S : Script V} {s : State V} {n y l} (h : Move S s n y l)
    (hi : (∃ cur cs, s.st n = .loop cur cs) ∨ (∃ f, s.st n = .wait f) ∨ s.st n = .tdown →
      S.isTest n = false)
    (hy : (∃ cur cs, y = .loop cur cs) ∨ (∃ f, y = .wait f) ∨ y = .tdown) :
    S.isTest n = false := by
  cases h <;> grind

theorem SI.parent {S : Script V} {root size : Nat} (ht : S.Tree root size) {s : State V}
    (hi : SI S root s) {n g : Nat} (hn : s.st n ≠ .idle) (hp : S.parent n = some g) :
    n ∈ s.started g := by
  obtain ⟨g', hg⟩ := hi.idle n (fun h => by rw [h, ht.top] at hp; cases hp) hn
  have := (ht.parent g' n (hi.inner g' n hg).1).1
  rw [this] at hp; cases hp; exact hg

theorem SI.idle_next {S : Script V} {root size : Nat} (ht : S.Tree root size) {s : State V}
    (hi : SI S root s) {n a as cs} (h : s.st n = .loop (a :: as) cs) :
    s.st a.node = .idle ∧ a.node ∈ S.inner n ∧ a.node ≠ n ∧ a.node ∉ s.started n := by
  obtain ⟨pre, h1, h2⟩ := hi.loop n _ _ h
  have hm : a.node ∈ S.inner n := by rw [h1]; simp [nodes]
  have hp := ht.parent n _ hm
  have hns : a.node ∉ s.started n := by
    intro hc
    have := ht.once n
    rw [h1] at this
    exact (List.nodup_append.mp this).2.2 _ (h2 _ hc) a.node (by simp [nodes]) rfl
  refine ⟨?_, hm, by omega, hns⟩
  rcases Classical.em (s.st a.node = .idle) with h3 | h3
  · exact h3
  · exact absurd (hi.parent ht h3 hp.1) hns

theorem SI.move {S : Script V} {root size : Nat} (ht : S.Tree root size) {n : Nat} {s : State V}
    (hi : SI S root s) {y l v} (hm : Move S s n y l) :
    SI S root ⟨upd s.st n y, upd s.env n v, s.started, l ++ s.log⟩ := by
  have hf := hm.from
  constructor
  · show upd s.st n y root ≠ _
    rw [upd_apply]; split
    · exact hf.2.2.1
    · exact hi.top
  · intro m h1 h2
    refine hi.idle m h1 ?_
    change upd s.st n y m ≠ _ at h2
    rw [upd_apply] at h2; split at h2
    · rename_i he; rw [he]; exact hf.1
    · exact h2
  · intro g c hc
    refine ⟨(hi.inner g c hc).1, ?_⟩
    show upd s.st n y c ≠ _
    rw [upd_apply]; split
    · exact hf.2.2.1
    · exact (hi.inner g c hc).2
  · intro g c hc
    show (∃ cur cs, upd s.st n y g = _) ∨ (∃ f, upd s.st n y g = _) ∨ ∃ b, upd s.st n y c = _
    have hcn : ∀ b, s.st c = .done b → c ≠ n := fun b hb he => by subst he; exact hf.2.1 b hb
    rcases Classical.em (g = n) with he | he
    · subst he
      rcases hm.phase (fun h => by rw [h] at hc; cases hc) (fun h => hi.fresh g (.inr h)) with
        h1 | h1 | h1 | h1
      · exact .inl (by simpa [upd_apply] using h1)
      · exact .inr (.inl (by simpa [upd_apply] using h1))
      · rcases hi.phase g c hc with ⟨_, _, h2⟩ | ⟨_, h2⟩ | ⟨b, h2⟩
        · rw [h1] at h2; cases h2
        · rw [h1] at h2; cases h2
        · exact .inr (.inr ⟨b, by rw [upd_apply, if_neg (hcn b h2)]; exact h2⟩)
      · obtain ⟨b, h2⟩ := h1 c hc
        exact .inr (.inr ⟨b, by rw [upd_apply, if_neg (hcn b h2)]; exact h2⟩)
    · rcases hi.phase g c hc with h1 | h1 | ⟨b, h2⟩
      · exact .inl (by rw [upd_apply, if_neg he]; exact h1)
      · exact .inr (.inl (by rw [upd_apply, if_neg he]; exact h1))
      · exact .inr (.inr ⟨b, by rw [upd_apply, if_neg (hcn b h2)]; exact h2⟩)
  · intro g hg
    change upd s.st n y g = _ ∨ upd s.st n y g = _ at hg
    rw [upd_apply] at hg; split at hg
    · exact absurd hg (by simp [hf.2.2.1, hf.2.2.2])
    · exact hi.fresh g hg
  · intro g hg
    change (∃ cur cs, upd s.st n y g = _) ∨ (∃ f, upd s.st n y g = _) ∨ upd s.st n y g = _ at hg
    simp only [upd_apply] at hg; split at hg
    · rename_i he; subst he; exact hm.notTest (hi.notTest g) hg
    · exact hi.notTest g hg
  · intro g cur cs hg
    change upd s.st n y g = _ at hg
    rw [upd_apply] at hg; split at hg
    · rename_i he; subst he
      rcases hm.loop hg with ⟨h1, rfl, rfl⟩ | ⟨cur', cs', h1, ⟨p, h2⟩, _⟩
      · refine ⟨[], by simp [nodes, Script.inner], ?_⟩
        intro c hc; have := hi.fresh g (.inr h1)
        change c ∈ s.started g at hc; rw [this] at hc; cases hc
      · obtain ⟨pre, h3, h4⟩ := hi.loop g _ _ h1
        exact ⟨pre ++ p, by rw [h3, h2, List.append_assoc], fun c hc =>
          List.mem_append_left _ (h4 c hc)⟩
    · exact hi.loop g cur cs hg
  · intro g cur cs hg
    change upd s.st n y g = _ at hg
    rw [upd_apply] at hg; split at hg
    · rename_i he; subst he
      rcases hm.loop hg with ⟨h1, rfl, rfl⟩ | ⟨cur', cs', h1, _, h2, h3⟩
      · exact ⟨by simp, fun c hc => hc⟩
      · obtain ⟨h4, h5⟩ := hi.known g _ _ h1
        refine ⟨fun a ha => ?_, fun c hc => h5 c (h2 c hc)⟩
        rcases h3 a ha with h6 | ⟨c, h6, h7⟩
        · exact h4 a h6
        · exact ⟨c, h5 c h6, h7⟩
    · exact hi.known g cur cs hg
  · intro m
    show (∃ v, .run m v ∈ l ++ s.log) ↔ (upd s.st n y m ≠ _ ∧ upd s.st n y m ≠ _)
    have hr := hi.runs m
    rw [upd_apply]
    rcases hm.log with ⟨rfl, h1⟩ | ⟨w, rfl, h1⟩ | ⟨w, b, rfl, h1, rfl⟩ <;> grind
  · intro m w hw
    change _ ∈ l ++ s.log at hw
    show ∃ b, upd s.st n y m = _
    have hr := hi.tdowns m w
    rw [upd_apply]
    rcases hm.log with ⟨rfl, h1⟩ | ⟨w, rfl, h1⟩ | ⟨w, b, rfl, h1, rfl⟩ <;> grind
  · show Nested S (l ++ s.log)
    have ht1 : ∀ m w, .tdown m w ∈ s.log → m ≠ n := by
      intro m w hw he; subst he
      obtain ⟨b, hb⟩ := hi.tdowns m w hw; exact hf.2.1 b hb
    have ht2 : ∀ g, S.parent n = some g → ∀ w, .tdown g w ∉ s.log := by
      intro g hg w hw
      obtain ⟨b, hb⟩ := hi.tdowns g w hw
      rcases hi.phase g n (hi.parent ht hf.1 hg) with ⟨_, _, h2⟩ | ⟨_, h2⟩ | ⟨b', h2⟩
      · rw [hb] at h2; cases h2
      · rw [hb] at h2; cases h2
      · exact hf.2.1 _ h2
    rcases hm.log with ⟨rfl, h1⟩ | ⟨w, rfl, h1⟩ | ⟨w, b, rfl, h1, rfl⟩
    · exact hi.nested
    · refine hi.nested.run (fun w hw => ?_) (fun w hw => ht1 n w hw rfl) (fun g hg => ⟨?_, ht2 g hg⟩)
      · exact ((hi.runs n).mp ⟨w, hw⟩).2 h1
      · have hs := hi.parent ht hf.1 hg
        refine (hi.runs g).mpr ⟨fun h => ?_, fun h => ?_⟩
        · rw [hi.fresh g (.inl h)] at hs; cases hs
        · rw [hi.fresh g (.inr h)] at hs; cases hs
    · exact hi.nested.tdown ((hi.runs n).mpr (by simp [h1])) (fun w hw => ht1 n w hw rfl) ht2

theorem SI.spawn {S : Script V} {root size : Nat} (ht : S.Tree root size) {n : Nat} {s : State V}
    (hi : SI S root s) {a as cs v} (h : s.st n = .loop (a :: as) cs) :
    SI S root ⟨upd (upd s.st n (.loop [] cs)) a.node .ready, upd s.env n v,
        upd s.started n (s.started n ++ [a.node]), s.log⟩ := by
  obtain ⟨hidle, hin, hne, hns⟩ := hi.idle_next ht h
  have hst : ∀ m, upd (upd s.st n (.loop [] cs)) a.node .ready m =
      if m = a.node then .ready else if m = n then .loop [] cs else s.st m := fun m => rfl
  have hstd : ∀ m, upd s.started n (s.started n ++ [a.node]) m =
      if m = n then s.started n ++ [a.node] else s.started m := fun m => rfl
  have hpar := (ht.parent n _ hin).1
  constructor
  · have := hi.top; show upd _ _ _ _ ≠ _; rw [hst]; grind
  · intro m h1 h2
    change upd _ _ _ _ ≠ _ at h2; rw [hst] at h2
    show ∃ g, m ∈ upd _ _ _ g
    rcases Classical.em (m = a.node) with he | he
    · exact ⟨n, by rw [hstd]; simp [he]⟩
    · obtain ⟨g, hg⟩ := hi.idle m h1 (by grind)
      exact ⟨g, by rw [hstd]; split <;> grind⟩
  · intro g c hc
    change c ∈ upd _ _ _ g at hc; rw [hstd] at hc
    show _ ∧ upd _ _ _ c ≠ _
    rw [hst]
    have := hi.inner g c
    split at hc <;> grind
  · intro g c hc
    change c ∈ upd _ _ _ g at hc; rw [hstd] at hc
    show (∃ cur cs, upd _ _ _ g = _) ∨ (∃ f, upd _ _ _ g = _) ∨ ∃ b, upd _ _ _ c = _
    simp only [hst]
    rcases Classical.em (g = n) with he | he
    · left; exact ⟨[], cs, by simp [he, Ne.symm hne]⟩
    · rw [if_neg he] at hc
      have h1 := hi.phase g c hc
      have h2 : g ≠ a.node := by
        intro h3; rw [h3, hi.fresh a.node (.inl hidle)] at hc; cases hc
      have h3 : c ≠ a.node := by
        intro h3; exact (hi.inner g c hc).2 (by rw [h3]; exact hidle)
      rcases h1 with h1 | h1 | ⟨b, h1⟩
      · left; rw [if_neg h2, if_neg he]; exact h1
      · right; left; rw [if_neg h2, if_neg he]; exact h1
      · right; right
        refine ⟨b, ?_⟩
        rw [if_neg h3, if_neg ?_]
        · exact h1
        · intro h4; rw [h4, h] at h1; cases h1
  · intro g hg
    change upd _ _ _ _ = _ ∨ upd _ _ _ _ = _ at hg; rw [hst] at hg
    show upd _ _ _ g = _
    rw [hstd]
    have := hi.fresh g
    grind
  · intro g hg
    change (∃ cur cs, upd _ _ _ g = _) ∨ (∃ f, upd _ _ _ g = _) ∨ upd _ _ _ g = _ at hg
    simp only [hst] at hg
    have h1 := hi.notTest g
    have h2 := hi.notTest n (.inl ⟨_, _, h⟩)
    grind
  · intro g cur cs' hg
    change upd _ _ _ g = _ at hg; rw [hst] at hg
    show ∃ pre, _ ∧ ∀ c ∈ upd _ _ _ g, c ∈ pre
    rw [hstd]
    split at hg
    · cases hg
    split at hg
    · rename_i he; subst he; cases hg
      obtain ⟨pre, h1, h2⟩ := hi.loop g _ _ h
      refine ⟨pre ++ a.node :: as.map Alt.node, by rw [h1]; simp [nodes], ?_⟩
      intro c hc
      rw [if_pos rfl] at hc
      rcases List.mem_append.mp hc with hc | hc
      · exact List.mem_append_left _ (h2 c hc)
      · simp at hc; simp [hc]
    · rename_i he; rw [if_neg he]; exact hi.loop g cur cs' hg
  · intro g cur cs' hg
    change upd _ _ _ g = _ at hg; rw [hst] at hg
    have h1 := hi.known g
    have h2 := hi.known n _ _ h
    grind
  · intro m
    show _ ↔ (upd _ _ _ m ≠ _ ∧ upd _ _ _ m ≠ _)
    rw [hst]
    have := hi.runs m
    grind
  · intro m w hw
    show ∃ b, upd _ _ _ m = _
    simp only [hst]
    obtain ⟨b, h1⟩ := hi.tdowns m w hw
    exact ⟨b, by grind⟩
  · exact hi.nested

theorem SI.step {S : Script V} {root size : Nat} (ht : S.Tree root size) {v₀ : V} {kg : Bool}
    {n : Nat} {s s' : State V} (hi : SI S root s) (h : Step S v₀ kg n s s') : SI S root s' := by
  rcases h.shape with ⟨y, l, v, hm, rfl⟩ | ⟨a, as, cs, v, h1, rfl⟩
  · exact hi.move ht hm
  · exact hi.spawn ht h1

theorem SI.reach {S : Script V} {root size : Nat} (ht : S.Tree root size) {v₀ : V} {kg : Bool}
    {k : Nat} {s : State V} (h : Reach S root v₀ kg k s) : SI S root s := by
  induction h with
  | init => exact .init
  | step _ h ih => exact ih.step ht h

end Verif.TestExec
