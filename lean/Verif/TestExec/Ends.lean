import Verif.TestExec.Inv

namespace Verif.TestExec

variable {V : Type} {S : Script V} {root size : Nat} {v₀ : V} {kg : Bool} {n : Nat}
  {s s' : State V}

theorem SI.lt (ht : S.Tree root size) (hi : SI S root s) {n : Nat} (hn : s.st n ≠ .idle) :
    n < size := by
  rcases Classical.em (n = root) with he | he
  · rw [he]; exact ht.start
  · obtain ⟨g, hg⟩ := hi.idle n he hn
    exact (ht.parent g n (hi.inner g n hg).1).2.2

theorem progress_node (ht : S.Tree root size) (hi : SI S root s) : ∀ (k n : Nat), size - n ≤ k →
    s.st n ≠ .idle → (∀ b, s.st n ≠ .done b) → ∃ m s', Step S v₀ kg m s s' := by
  intro k
  induction k with
  | zero => intro n hk hn _; have := hi.lt ht hn; omega
  | succ k ih =>
    intro n hk hn hd
    cases hs : s.st n with
    | idle => exact absurd hs hn
    | done b => exact absurd hs (hd b)
    | ready =>
      rcases Bool.eq_false_or_eq_true (S.isTest n) with h | h
      · exact ⟨n, _, .test hs h⟩
      · exact ⟨n, _, .setup hs h⟩
    | loop cur cs =>
      rcases cur with _ | ⟨a, as⟩
      · exact ⟨n, _, .chain hs⟩
      · cases hc : a.cond with
        | none => exact ⟨n, _, .always hs hc⟩
        | some f => exact ⟨n, _, .cond hs hc⟩
    | tdown => exact ⟨n, _, .tdown hs⟩
    | wait f =>
      rcases Classical.em (∃ c ∈ s.started n, ∀ b, s.st c ≠ .done b) with ⟨c, hc, hcd⟩ | hall
      · have h1 := hi.inner n c hc
        have h2 := ht.parent n c h1.1
        exact ih c (by omega) h1.2 hcd
      · have hall' : ∀ c ∈ s.started n, ∃ b, s.st c = .done b := by
          intro c hc
          rcases Classical.em (∃ b, s.st c = .done b) with h | h
          · exact h
          · exact absurd ⟨c, hc, fun b hb => h ⟨b, hb⟩⟩ hall
        rcases Bool.eq_false_or_eq_true f with rfl | rfl
        · exact ⟨n, _, .failed (c := 0) hs hall' (.inl rfl)⟩
        · rcases Classical.em (∃ c ∈ s.started n, s.st c = .done false) with ⟨c, h1, h2⟩ | hno
          · exact ⟨n, _, .failed hs hall' (.inr ⟨h1, h2⟩)⟩
          · refine ⟨n, _, .passed hs (fun c hc => ?_)⟩
            obtain ⟨b, hb⟩ := hall' c hc
            cases b with
            | true => exact hb
            | false => exact absurd ⟨c, hc, hb⟩ hno

/-- How much there may be left to do with the chains. -/
def todo (cs : List (Chain V)) : Nat := (cs.map fun c => c.alts.length + 1).sum

/-- The same for a scope. -/
def weight (S : Script V) (n : Nat) : Status V → Nat
  | .idle => todo (S.chains n) + 5
  | .ready => todo (S.chains n) + 4
  | .loop cur cs => cur.length + todo cs + 3
  | .wait _ => 2
  | .tdown => 1
  | .done _ => 0

/-- The same for all. -/
def total (S : Script V) (size : Nat) (s : State V) : Nat :=
  ((List.range size).map fun n => weight S n (s.st n)).sum

theorem sum_le {l : List Nat} {f g : Nat → Nat} (h : ∀ m, f m ≤ g m) :
    (l.map f).sum ≤ (l.map g).sum := by
  induction l with
  | nil => simp
  | cons a l ih => have := h a; simp; omega

theorem sum_lt {l : List Nat} {f g : Nat → Nat} (h : ∀ m, f m ≤ g m) {n : Nat} (hn : n ∈ l)
    (hlt : f n < g n) : (l.map f).sum < (l.map g).sum := by
  induction l with
  | nil => cases hn
  | cons a l ih =>
    simp only [List.map_cons, List.sum_cons]
    rcases List.mem_cons.mp hn with rfl | hn
    · have := sum_le (l := l) h; omega
    · have := ih hn; have := h a; omega

theorem Move.weight {y : Status V} {l} (h : Move S s n y l) :
    weight S n y < weight S n (s.st n) := by
  cases h with
  | test h => rw [h]; simp only [TestExec.weight]; omega
  | @setup r v h => rw [h]; cases r <;> simp [afterSetup, TestExec.weight] <;> omega
  | @chain cs h =>
    rw [h]
    rcases cs with _ | ⟨c, cs⟩
    · simp [nextChain, TestExec.weight]
    · simp only [nextChain]; split <;> simp [TestExec.weight, todo] <;> omega
  | empty h => rw [h]; simp [TestExec.weight]
  | no h => rw [h]; simp [TestExec.weight]
  | stop h => rw [h]; simp only [TestExec.weight]; omega
  | passed h => rw [h]; simp [TestExec.weight]
  | failed h => rw [h]; simp [TestExec.weight]
  | tdown h => rw [h]; simp [TestExec.weight]

theorem Step.total (ht : S.Tree root size) (hi : SI S root s) (h : Step S v₀ kg n s s') :
    total S size s' < total S size s := by
  unfold TestExec.total
  rcases h.shape with ⟨y, l, v, hm, rfl⟩ | ⟨a, as, cs, v, h1, rfl⟩
  · have hw := hm.weight
    refine sum_lt (n := n) (fun m => ?_) (List.mem_range.mpr (hi.lt ht hm.from.1)) ?_
    · simp only [upd_apply]; split
      · rename_i he; subst he; omega
      · exact Nat.le_refl _
    · simp only [upd_apply, if_pos]; exact hw
  · obtain ⟨hidle, _, hne, _⟩ := hi.idle_next ht h1
    have hw : weight S n (.loop [] cs) < weight S n (s.st n) := by
      rw [h1]; simp [weight]
    refine sum_lt (n := n) (fun m => ?_) (List.mem_range.mpr (hi.lt ht (by rw [h1]; simp))) ?_
    · simp only [upd_apply]; split
      · rename_i he; rw [he, hidle]; simp [weight]
      · split
        · rename_i he; subst he; omega
        · exact Nat.le_refl _
    · simp only [upd_apply, if_neg (Ne.symm hne), if_pos]; exact hw

theorem Reach.total (ht : S.Tree root size) {k : Nat} (h : Reach S root v₀ kg k s) :
    k + total S size s ≤ total S size (TestExec.init root v₀) := by
  induction h with
  | init => simp
  | step h0 h ih => have := h.total ht (SI.reach ht h0); omega

/-- Once the outermost scope has ended, everything has. -/
theorem all_done (ht : S.Tree root size) (hi : SI S root s) {b : Bool}
    (hb : s.st root = .done b) : ∀ n, s.st n ≠ .idle → ∃ b, s.st n = .done b := by
  intro n
  induction n using Nat.strongRecOn with
  | _ n ih =>
    intro hn
    rcases Classical.em (n = root) with he | he
    · exact ⟨b, by rw [he]; exact hb⟩
    · obtain ⟨g, hg⟩ := hi.idle n he hn
      have h1 := ht.parent g n (hi.inner g n hg).1
      have h2 : s.st g ≠ .idle := by
        intro h; rw [hi.fresh g (.inl h)] at hg; cases hg
      obtain ⟨b', h3⟩ := ih g h1.2.1 h2
      rcases hi.phase g n hg with ⟨_, _, h4⟩ | ⟨_, h4⟩ | h4
      · rw [h3] at h4; cases h4
      · rw [h3] at h4; cases h4
      · exact h4

/-- When keeping going, everything that is to be executed is. -/
theorem executed_done (ht : S.Tree root size) (hi : SI S root s) (hs : Sem S root v₀ true s)
    {b : Bool} (hb : s.st root = .done b) {n : Nat} {v : V} (h : Executed S root v₀ n v) :
    (∃ b, s.st n = .done b) ∧ vis S v₀ s n = v := by
  induction h with
  | root => exact ⟨⟨b, hb⟩, by unfold vis; rw [ht.top]⟩
  | @inner g v v' ns f n _ h1 h2 h3 h4 ih =>
    obtain ⟨⟨b', h5⟩, h6⟩ := ih
    have hg := hs.good g
    rw [h5] at hg
    obtain ⟨h7, h8⟩ := hg.2.1 h1
    rw [h6, h2] at h7 h8
    obtain ⟨f', h9⟩ := h8 rfl rfl
    dsimp only at h7; subst h7
    have := (picks_unique h3 h9).1
    subst this
    have hin := hi.inner g n h4
    refine ⟨?_, vis_inner ht hin.1⟩
    rcases hi.phase g n h4 with ⟨_, _, h10⟩ | ⟨_, h10⟩ | h10
    · rw [h5] at h10; cases h10
    · rw [h5] at h10; cases h10
    · exact h10

end Verif.TestExec
