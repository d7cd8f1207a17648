import Verif.Recipe.Model

/-! # Changes that an ad hoc recipe depends on: lemmas about scripts -/

namespace Verif.Recipe

variable {σ ξ ρ : Type}

/-- There is no function call with a computed name. -/
def Expr.named : Expr → Bool
  | .lit _ => true
  | .var _ => true
  | .computed e => e.named
  | .op _ a b => a.named && b.named
  | .call _ a => a.named
  | .callc _ _ => false
  | .cond c a b => c.named && a.named && b.named

/-- An expression with which the value depends on the variables in `W` only. -/
structure Expr.Closed (S : Sem σ ξ ρ) (W : List Str) (e : Expr) : Prop where
  refs  : ∀ n ∈ e.refs, n ∈ W
  comp  : e.hasComputed = false
  calls : ∀ f ∈ e.calls, impure S f = false
  named : e.named = true

theorem call_pure (S : Sem σ ξ ρ) (x y : ξ) (f : Str) (v : Val) (h : impure S f = false) :
    S.call x f v = S.call y f v := by
  unfold Sem.call
  unfold impure at h
  split at h
  · cases h
  · rename_i hne
    split
    · rfl
    · rename_i g hg; exact absurd hg (by intro h'; exact hne _ h')
    · rfl

/-- With the same variables the value is the same. -/
theorem eval_congr (S : Sem σ ξ ρ) (W : List Str) (x y : ξ) (look look' : Str → Option Val)
    (hl : ∀ n ∈ W, look n = look' n) (e : Expr) (h : e.Closed S W) :
    eval S x look e = eval S y look' e := by
  induction e with
  | lit v => rfl
  | var n => exact hl n (h.refs n (by simp [Expr.refs]))
  | computed e _ => have := h.comp; simp [Expr.hasComputed] at this
  | op k a b iha ihb =>
    obtain ⟨h1, h2, h3, h4⟩ := h
    simp only [Expr.hasComputed, Bool.or_eq_false_iff] at h2
    simp only [Expr.named, Bool.and_eq_true] at h4
    simp only [Expr.refs, List.mem_append] at h1
    simp only [Expr.calls, List.mem_append] at h3
    have ea := iha ⟨fun n hn => h1 n (Or.inl hn), h2.1, fun n hn => h3 n (Or.inl hn), h4.1⟩
    have eb := ihb ⟨fun n hn => h1 n (Or.inr hn), h2.2, fun n hn => h3 n (Or.inr hn), h4.2⟩
    simp only [eval, ea, eb]
  | call f a iha =>
    obtain ⟨h1, h2, h3, h4⟩ := h
    simp only [Expr.calls, List.mem_append, List.mem_singleton] at h3
    have ea := iha ⟨h1, h2, fun n hn => h3 n (Or.inl hn), h4⟩
    have hp : ∀ v, S.call x f v = S.call y f v := fun v => call_pure S x y f v (h3 f (Or.inr rfl))
    simp only [eval, ea, hp]
  | callc f a _ _ => have := h.named; simp [Expr.named] at this
  | cond c a b ihc iha ihb =>
    obtain ⟨h1, h2, h3, h4⟩ := h
    simp only [Expr.hasComputed, Bool.or_eq_false_iff] at h2
    simp only [Expr.named, Bool.and_eq_true] at h4
    simp only [Expr.refs, List.mem_append] at h1
    simp only [Expr.calls, List.mem_append] at h3
    have ec := ihc ⟨fun n hn => h1 n (Or.inl (Or.inl hn)), h2.1.1,
      fun n hn => h3 n (Or.inl (Or.inl hn)), h4.1.1⟩
    have ea := iha ⟨fun n hn => h1 n (Or.inl (Or.inr hn)), h2.1.2,
      fun n hn => h3 n (Or.inl (Or.inr hn)), h4.1.2⟩
    have eb := ihb ⟨fun n hn => h1 n (Or.inr hn), h2.2, fun n hn => h3 n (Or.inr hn), h4.2⟩
    simp only [eval, ec, ea, eb]

/-- The variables that are appended to. -/
def Scr.appended : Scr → List Str
  | .skip => []
  | .seq a b => a.appended ++ b.appended
  | .assign _ _ => []
  | .append n _ => [n]
  | .cmd _ => []
  | .set _ _ => []
  | .ite _ a b => a.appended ++ b.appended
  | .loop _ b => b.appended
  | .each _ _ b => b.appended

/-- What such a script does depends on the variables in `W` only. -/
structure Scr.Closed (S : Sem σ ξ ρ) (W : List Str) (a : Scr) : Prop where
  exprs : ∀ e ∈ a.exprs, e.Closed S W
  apps  : ∀ n ∈ a.appended, n ∈ W

/-- Two places to execute, for which the lookups agree on `W` if `A` does. -/
structure CtxRel (W : List Str) (A : Loc → Loc → Prop) (c c' : Ctx ξ) : Prop where
  prog : c.prog = c'.prog
  cmds : c.cmds = c'.cmds
  fuel : c.fuel = c'.fuel
  look : ∀ l l', A l l' → ∀ n ∈ W, c.look l n = c'.look l' n
  old  : ∀ l l', A l l' → ∀ n ∈ W,
    ((l n).or (c.env n)).getD .null = ((l' n).or (c'.env n)).getD .null
  put  : ∀ l l', A l l' → ∀ n v, A (l.put n v) (l'.put n v)

/-- The same outcome. -/
def ResRel (A : Loc → Loc → Prop) : Res σ → Res σ → Prop
  | .ok l s, .ok l' s' => A l l' ∧ s = s'
  | .fail, .fail => True
  | .stuck, .stuck => True
  | _, _ => False

theorem ResRel.bind {A : Loc → Loc → Prop} {r r' : Res σ} {k k' : Loc → σ → Res σ}
    (h : ResRel A r r') (hk : ∀ l l' s, A l l' → ResRel A (k l s) (k' l' s)) :
    ResRel A (r.bind k) (r'.bind k') := by
  cases r <;> cases r' <;> simp only [ResRel] at h
  · obtain ⟨h1, h2⟩ := h; subst h2; exact hk _ _ _ h1
  · trivial
  · trivial

theorem iter_rel {A : Loc → Loc → Prop} {b b' : Loc → σ → Res σ} (n : Str)
    (hp : ∀ l l' v, A l l' → A (l.put n v) (l'.put n v))
    (hb : ∀ l l' s, A l l' → ResRel A (b l s) (b' l' s)) (vs : List Val) :
    ∀ l l' s, A l l' → ResRel A (iter b n vs l s) (iter b' n vs l' s) := by
  induction vs with
  | nil => intro l l' s h; exact ⟨h, rfl⟩
  | cons v vs ih =>
    intro l l' s h
    exact (hb _ _ s (hp _ _ v h)).bind ih

theorem while_rel {A : Loc → Loc → Prop} {c c' : Loc → σ → Option (σ × Bool)}
    {b b' : Loc → σ → Res σ} (hc : ∀ l l' s, A l l' → c l s = c' l' s)
    (hb : ∀ l l' s, A l l' → ResRel A (b l s) (b' l' s)) (f : Nat) :
    ∀ l l' s, A l l' → ResRel A (while_ c b f l s) (while_ c' b' f l' s) := by
  induction f with
  | zero => intro l l' s _; exact trivial
  | succ f ih =>
    intro l l' s h
    rw [while_, while_, hc l l' s h]
    cases hcc : c' l' s with
    | none => exact trivial
    | some r =>
      obtain ⟨s1, t⟩ := r
      cases t with
      | false => exact ⟨h, rfl⟩
      | true => exact (hb _ _ s1 h).bind ih

theorem runCmd_congr (S : Sem σ ξ ρ) {W : List Str} {A : Loc → Loc → Prop} {c c' : Ctx ξ}
    (hc : CtxRel W A c c') {l l' : Loc} (h : A l l') (s : σ) (e : Expr) (he : e.Closed S W) :
    runCmd S c e l s = runCmd S c' e l' s := by
  unfold runCmd
  rw [eval_congr S W c.ext c'.ext _ _ (hc.look l l' h) e he, hc.prog]

/-- With the same variables the outcome is the same. -/
theorem exec_rel (S : Sem σ ξ ρ) {W : List Str} {A : Loc → Loc → Prop} {c c' : Ctx ξ}
    (hc : CtxRel W A c c') (a : Scr) (ha : a.Closed S W) :
    ∀ l l' s, A l l' → ResRel A (exec S c a l s) (exec S c' a l' s) := by
  induction a with
  | skip => intro l l' s h; exact ⟨h, rfl⟩
  | seq a b iha ihb =>
    intro l l' s h
    obtain ⟨h1, h2⟩ := ha
    simp only [Scr.exprs, Scr.appended, List.mem_append] at h1 h2
    exact (iha ⟨fun e he => h1 e (Or.inl he), fun e he => h2 e (Or.inl he)⟩ l l' s h).bind
      (ihb ⟨fun e he => h1 e (Or.inr he), fun e he => h2 e (Or.inr he)⟩)
  | assign n e =>
    intro l l' s h
    have he := eval_congr S W c.ext c'.ext _ _ (hc.look l l' h) e
      (ha.exprs e (by simp [Scr.exprs]))
    rw [exec, exec, he]
    split
    · exact ⟨hc.put _ _ h _ _, rfl⟩
    · trivial
  | append n e =>
    intro l l' s h
    have he := eval_congr S W c.ext c'.ext _ _ (hc.look l l' h) e
      (ha.exprs e (by simp [Scr.exprs]))
    have ho := hc.old l l' h n (ha.apps n (by simp [Scr.appended]))
    rw [exec, exec, he, ho]
    split
    · split
      · exact ⟨hc.put _ _ h _ _, rfl⟩
      · trivial
    · trivial
  | cmd e =>
    intro l l' s h
    rw [exec, exec, runCmd_congr S hc h s e (ha.exprs e (by simp [Scr.exprs])), hc.cmds]
    split
    · split
      · exact ⟨h, rfl⟩
      · trivial
    · trivial
  | set e n =>
    intro l l' s h
    have he := eval_congr S W c.ext c'.ext _ _ (hc.look l l' h) n
      (ha.exprs n (by simp [Scr.exprs]))
    rw [exec, exec, runCmd_congr S hc h s e (ha.exprs e (by simp [Scr.exprs])), he]
    split
    · split
      · trivial
      · split
        · exact ⟨hc.put _ _ h _ _, rfl⟩
        · trivial
    · trivial
  | ite e a b iha ihb =>
    intro l l' s h
    obtain ⟨h1, h2⟩ := ha
    simp only [Scr.exprs, Scr.appended, List.mem_append, List.mem_cons] at h1 h2
    rw [exec, exec, runCmd_congr S hc h s e (h1 e (Or.inl rfl))]
    split
    · exact iha ⟨fun e he => h1 e (Or.inr (Or.inl he)), fun e he => h2 e (Or.inl he)⟩ _ _ _ h
    · exact ihb ⟨fun e he => h1 e (Or.inr (Or.inr he)), fun e he => h2 e (Or.inr he)⟩ _ _ _ h
    · trivial
  | loop e b ihb =>
    intro l l' s h
    obtain ⟨h1, h2⟩ := ha
    simp only [Scr.exprs, Scr.appended, List.mem_cons] at h1 h2
    rw [exec, exec, hc.fuel]
    exact while_rel
      (fun l l' s h => by rw [runCmd_congr S hc h s e (h1 e (Or.inl rfl))])
      (ihb ⟨fun e he => h1 e (Or.inr he), h2⟩) _ l l' s h
  | each n e b ihb =>
    intro l l' s h
    obtain ⟨h1, h2⟩ := ha
    simp only [Scr.exprs, Scr.appended, List.mem_cons] at h1 h2
    rw [exec, exec, eval_congr S W c.ext c'.ext _ _ (hc.look l l' h) e (h1 e (Or.inl rfl))]
    split
    · exact iter_rel n (fun l l' v h => hc.put l l' h n v)
        (ihb ⟨fun e he => h1 e (Or.inr he), h2⟩) _ l l' s h
    · trivial

theorem execs_rel (S : Sem σ ξ ρ) {W : List Str} {A : Loc → Loc → Prop} {c c' : Ctx ξ}
    (hc : CtxRel W A c c') (as : List Scr) (ha : ∀ a ∈ as, a.Closed S W) :
    ∀ l l' s, A l l' → ResRel A (execs S c as l s) (execs S c' as l' s) := by
  induction as with
  | nil => intro l l' s h; exact ⟨h, rfl⟩
  | cons a as ih =>
    intro l l' s h
    exact (exec_rel S hc a (ha a (by simp)) l l' s h).bind
      (ih fun b hb => ha b (by simp [hb]))

/-! ## Without commands -/

/-- If it succeeds without commands other than `set` being allowed then it does with. -/
theorem whileOk {c : Loc → σ → Option (σ × Bool)} {b b' : Loc → σ → Res σ}
    (hb : ∀ l s l' s', b l s = .ok l' s' → b' l s = .ok l' s') (f : Nat) :
    ∀ l s l' s', while_ c b f l s = .ok l' s' → while_ c b' f l s = .ok l' s' := by
  induction f with
  | zero => intro l s l' s' h; cases h
  | succ f ih =>
    intro l s l' s' h
    rw [while_] at h ⊢
    cases hcc : c l s with
    | none => rw [hcc] at h; cases h
    | some r =>
      obtain ⟨s1, t⟩ := r
      rw [hcc] at h
      cases t with
      | false => exact h
      | true =>
        simp only at h ⊢
        cases hr : b l s1 with
        | fail => rw [hr] at h; cases h
        | stuck => rw [hr] at h; cases h
        | ok l2 s2 => rw [hr] at h; rw [hb _ _ _ _ hr]; exact ih _ _ _ _ h

theorem iterOk {b b' : Loc → σ → Res σ} (n : Str)
    (hb : ∀ l s l' s', b l s = .ok l' s' → b' l s = .ok l' s') (vs : List Val) :
    ∀ l s l' s', iter b n vs l s = .ok l' s' → iter b' n vs l s = .ok l' s' := by
  induction vs with
  | nil => intro l s l' s' h; exact h
  | cons v vs ih =>
    intro l s l' s' h
    rw [iter] at h ⊢
    cases hr : b (l.put n v) s with
    | fail => rw [hr] at h; cases h
    | stuck => rw [hr] at h; cases h
    | ok l2 s2 => rw [hr] at h; rw [hb _ _ _ _ hr]; exact ih _ _ _ _ h

/-- With commands being allowed. -/
def Ctx.all (c : Ctx ξ) : Ctx ξ := { c with cmds := true }

theorem exec_all (S : Sem σ ξ ρ) (c : Ctx ξ) (a : Scr) :
    ∀ l s l' s', exec S c a l s = .ok l' s' → exec S c.all a l s = .ok l' s' := by
  induction a with
  | skip => intro l s l' s' h; exact h
  | seq a b iha ihb =>
    intro l s l' s' h
    rw [exec] at h ⊢
    cases hr : exec S c a l s with
    | fail => rw [hr] at h; cases h
    | stuck => rw [hr] at h; cases h
    | ok l2 s2 => rw [hr] at h; rw [iha _ _ _ _ hr]; exact ihb _ _ _ _ h
  | assign n e => intro l s l' s' h; exact h
  | append n e => intro l s l' s' h; exact h
  | cmd e =>
    intro l s l' s' h
    rw [exec] at h ⊢
    rw [if_pos (show c.all.cmds = true from rfl)]
    split at h
    · exact h
    · cases h
  | set e n => intro l s l' s' h; exact h
  | ite e a b iha ihb =>
    intro l s l' s' h
    rw [exec] at h ⊢
    have : runCmd S c.all e l s = runCmd S c e l s := rfl
    rw [this]
    split at h
    · exact iha _ _ _ _ h
    · exact ihb _ _ _ _ h
    · cases h
  | loop e b ihb =>
    intro l s l' s' h
    rw [exec] at h ⊢
    exact whileOk ihb _ _ _ _ _ h
  | each n e b ihb =>
    intro l s l' s' h
    rw [exec] at h ⊢
    have : eval S c.all.ext (c.all.look l) e = eval S c.ext (c.look l) e := rfl
    rw [this]
    split at h
    · exact iterOk n ihb _ _ _ _ _ h
    · cases h

/-! ## Without the check for untracked variables -/

/-- If it succeeds with the check then it does without. -/
theorem eval_mono (S : Sem σ ξ ρ) (x : ξ) {look look' : Str → Option Val}
    (hl : ∀ n v, look n = some v → look' n = some v) (e : Expr) :
    ∀ v, eval S x look e = some v → eval S x look' e = some v := by
  induction e with
  | lit v => intro v h; exact h
  | var n => intro v h; exact hl n v h
  | computed e ih =>
    intro v h
    simp only [eval, Option.bind_eq_some_iff] at h ⊢
    obtain ⟨w, h1, n, h2, h3⟩ := h
    exact ⟨w, ih w h1, n, h2, hl n v h3⟩
  | op k a b iha ihb =>
    intro v h
    simp only [eval, Option.bind_eq_some_iff] at h ⊢
    obtain ⟨w, h1, u, h2, h3⟩ := h
    exact ⟨w, iha w h1, u, ihb u h2, h3⟩
  | call f a iha =>
    intro v h
    simp only [eval, Option.bind_eq_some_iff] at h ⊢
    obtain ⟨w, h1, h3⟩ := h
    exact ⟨w, iha w h1, h3⟩
  | callc f a ihf iha =>
    intro v h
    simp only [eval, Option.bind_eq_some_iff] at h ⊢
    obtain ⟨w, h1, n, h2, u, h3, h4⟩ := h
    exact ⟨w, ihf w h1, n, h2, u, iha u h3, h4⟩
  | cond c a b ihc iha ihb =>
    intro v h
    simp only [eval, Option.bind_eq_some_iff] at h ⊢
    obtain ⟨w, h1, t, h2, h3⟩ := h
    refine ⟨w, ihc w h1, t, h2, ?_⟩
    cases t
    · exact ihb v h3
    · exact iha v h3

/-- The same with another lookup. -/
def Ctx.with (c : Ctx ξ) (look : Loc → Str → Option Val) : Ctx ξ := { c with look := look }

theorem whileOk' {c c' : Loc → σ → Option (σ × Bool)} {b b' : Loc → σ → Res σ}
    (hc : ∀ l s r, c l s = some r → c' l s = some r)
    (hb : ∀ l s l' s', b l s = .ok l' s' → b' l s = .ok l' s') (f : Nat) :
    ∀ l s l' s', while_ c b f l s = .ok l' s' → while_ c' b' f l s = .ok l' s' := by
  induction f with
  | zero => intro l s l' s' h; cases h
  | succ f ih =>
    intro l s l' s' h
    rw [while_] at h ⊢
    cases hcc : c l s with
    | none => rw [hcc] at h; cases h
    | some r =>
      obtain ⟨s1, t⟩ := r
      rw [hcc] at h
      rw [hc _ _ _ hcc]
      cases t with
      | false => exact h
      | true =>
        simp only at h ⊢
        cases hr : b l s1 with
        | fail => rw [hr] at h; cases h
        | stuck => rw [hr] at h; cases h
        | ok l2 s2 => rw [hr] at h; rw [hb _ _ _ _ hr]; exact ih _ _ _ _ h

theorem runCmd_mono (S : Sem σ ξ ρ) (c : Ctx ξ) {look : Loc → Str → Option Val}
    (hl : ∀ l n v, c.look l n = some v → look l n = some v) (e : Expr) (l : Loc) (s : σ)
    (r : σ × Bool × Val) (h : runCmd S c e l s = some r) :
    runCmd S (c.with look) e l s = some r := by
  unfold runCmd at h ⊢
  rw [Option.map_eq_some_iff] at h ⊢
  obtain ⟨v, h1, h2⟩ := h
  exact ⟨v, eval_mono S c.ext (hl l) e v h1, h2⟩

theorem exec_mono (S : Sem σ ξ ρ) (c : Ctx ξ) {look : Loc → Str → Option Val}
    (hl : ∀ l n v, c.look l n = some v → look l n = some v) (a : Scr) :
    ∀ l s l' s', exec S c a l s = .ok l' s' → exec S (c.with look) a l s = .ok l' s' := by
  have hev : ∀ l e v, eval S c.ext (c.look l) e = some v →
      eval S (c.with look).ext ((c.with look).look l) e = some v :=
    fun l e v h => eval_mono S c.ext (hl l) e v h
  induction a with
  | skip => intro l s l' s' h; exact h
  | seq a b iha ihb =>
    intro l s l' s' h
    rw [exec] at h ⊢
    cases hr : exec S c a l s with
    | fail => rw [hr] at h; cases h
    | stuck => rw [hr] at h; cases h
    | ok l2 s2 => rw [hr] at h; rw [iha _ _ _ _ hr]; exact ihb _ _ _ _ h
  | assign n e =>
    intro l s l' s' h
    rw [exec] at h ⊢
    split at h
    · rename_i v hv; rw [hev _ _ _ hv]; exact h
    · cases h
  | append n e =>
    intro l s l' s' h
    rw [exec] at h ⊢
    split at h
    · rename_i v hv; rw [hev _ _ _ hv]; exact h
    · cases h
  | cmd e =>
    intro l s l' s' h
    rw [exec] at h ⊢
    have : (c.with look).cmds = c.cmds := rfl
    rw [this]
    split at h
    · rename_i hc
      rw [if_pos hc]
      split at h
      · rename_i hr; rw [runCmd_mono S c hl e l s _ hr]; exact h
      · cases h
    · cases h
  | set e n =>
    intro l s l' s' h
    rw [exec] at h ⊢
    split at h
    · rename_i m hm
      rw [Option.bind_eq_some_iff] at hm
      obtain ⟨v, h1, h2⟩ := hm
      rw [hev _ _ _ h1]
      simp only [Option.bind_some, h2]
      split at h
      · cases h
      · rename_i hs
        rw [if_neg hs]
        split at h
        · rename_i hr; rw [runCmd_mono S c hl e l s _ hr]; exact h
        · cases h
    · cases h
  | ite e a b iha ihb =>
    intro l s l' s' h
    rw [exec] at h ⊢
    split at h
    · rename_i hr; rw [runCmd_mono S c hl e l s _ hr]; exact iha _ _ _ _ h
    · rename_i hr; rw [runCmd_mono S c hl e l s _ hr]; exact ihb _ _ _ _ h
    · cases h
  | loop e b ihb =>
    intro l s l' s' h
    rw [exec] at h ⊢
    refine whileOk' ?_ ihb _ _ _ _ _ h
    intro l s r hr
    rw [Option.map_eq_some_iff] at hr ⊢
    obtain ⟨x, h1, h2⟩ := hr
    exact ⟨x, runCmd_mono S c hl e l s x h1, h2⟩
  | each n e b ihb =>
    intro l s l' s' h
    rw [exec] at h ⊢
    split at h
    · rename_i v hv; rw [hev _ _ _ hv]; exact iterOk n ihb _ _ _ _ _ h
    · cases h

theorem execs_mono (S : Sem σ ξ ρ) (c : Ctx ξ) {look : Loc → Str → Option Val}
    (hl : ∀ l n v, c.look l n = some v → look l n = some v) (as : List Scr) :
    ∀ l s l' s', execs S c as l s = .ok l' s' → execs S (c.with look) as l s = .ok l' s' := by
  induction as with
  | nil => intro l s l' s' h; exact h
  | cons a as ih =>
    intro l s l' s' h
    rw [execs] at h ⊢
    cases hr : exec S c a l s with
    | fail => rw [hr] at h; cases h
    | stuck => rw [hr] at h; cases h
    | ok l2 s2 => rw [hr] at h; rw [exec_mono S c hl a _ _ _ _ hr]; exact ih _ _ _ _ h

theorem guarded_plain (p : Script) (env : Env) (l : Loc) (n : Str) (v : Val)
    (h : guardedLook p env l n = some v) : plainLook env l n = some v := by
  unfold guardedLook at h
  unfold plainLook
  cases hl : l n with
  | some w => rw [hl] at h; simpa using h
  | none =>
    rw [hl] at h
    cases he : env n with
    | none => rw [he] at h; simpa using h
    | some w =>
      rw [he] at h
      simp only at h
      split at h
      · cases h
      · simpa using h

theorem execs_append (S : Sem σ ξ ρ) (c : Ctx ξ) (as bs : List Scr) (l : Loc) (s : σ) :
    execs S c (as ++ bs) l s = (execs S c as l s).bind (execs S c bs) := by
  induction as generalizing l s with
  | nil => rfl
  | cons a as ih =>
    show ((exec S c a l s).bind (execs S c (as ++ bs))) =
      (((exec S c a l s).bind (execs S c as)).bind (execs S c bs))
    cases exec S c a l s with
    | fail => rfl
    | stuck => rfl
    | ok l2 s2 => exact ih l2 s2

/-! ## Variables stay defined -/

theorem put_grow (l : Loc) (m n : Str) (v : Val) (h : (l n).isSome) : (l.put m v n).isSome := by
  unfold Loc.put
  split
  · rfl
  · exact h

theorem iter_grow {b : Loc → σ → Res σ} (m n : Str)
    (hb : ∀ l s l' s', b l s = .ok l' s' → (l n).isSome → (l' n).isSome) (vs : List Val) :
    ∀ l s l' s', iter b m vs l s = .ok l' s' → (l n).isSome → (l' n).isSome := by
  induction vs with
  | nil => intro l s l' s' h hh; cases h; exact hh
  | cons v vs ih =>
    intro l s l' s' h hh
    rw [iter] at h
    cases hr : b (l.put m v) s with
    | fail => rw [hr] at h; cases h
    | stuck => rw [hr] at h; cases h
    | ok l2 s2 =>
      rw [hr] at h
      exact ih _ _ _ _ h (hb _ _ _ _ hr (put_grow l m n v hh))

theorem while_grow {c : Loc → σ → Option (σ × Bool)} {b : Loc → σ → Res σ} (n : Str)
    (hb : ∀ l s l' s', b l s = .ok l' s' → (l n).isSome → (l' n).isSome) (f : Nat) :
    ∀ l s l' s', while_ c b f l s = .ok l' s' → (l n).isSome → (l' n).isSome := by
  induction f with
  | zero => intro l s l' s' h; cases h
  | succ f ih =>
    intro l s l' s' h hh
    rw [while_] at h
    split at h
    · cases h
    · rename_i s1 _
      cases hr : b l s1 with
      | fail => rw [hr] at h; cases h
      | stuck => rw [hr] at h; cases h
      | ok l2 s2 => rw [hr] at h; exact ih _ _ _ _ h (hb _ _ _ _ hr hh)
    · cases h; exact hh

/-- A variable stays defined. -/
theorem exec_grow (S : Sem σ ξ ρ) (c : Ctx ξ) (a : Scr) (n : Str) :
    ∀ l s l' s', exec S c a l s = .ok l' s' → (l n).isSome → (l' n).isSome := by
  induction a with
  | skip => intro l s l' s' h hh; cases h; exact hh
  | seq a b iha ihb =>
    intro l s l' s' h hh
    rw [exec] at h
    cases hr : exec S c a l s with
    | fail => rw [hr] at h; cases h
    | stuck => rw [hr] at h; cases h
    | ok l2 s2 => rw [hr] at h; exact ihb _ _ _ _ h (iha _ _ _ _ hr hh)
  | assign m e =>
    intro l s l' s' h hh
    rw [exec] at h
    split at h
    · cases h; exact put_grow _ _ _ _ hh
    · cases h
  | append m e =>
    intro l s l' s' h hh
    rw [exec] at h
    split at h
    · split at h
      · cases h; exact put_grow _ _ _ _ hh
      · cases h
    · cases h
  | cmd e =>
    intro l s l' s' h hh
    rw [exec] at h
    split at h
    · split at h
      · cases h; exact hh
      · cases h
    · cases h
  | set e m =>
    intro l s l' s' h hh
    rw [exec] at h
    split at h
    · split at h
      · cases h
      · split at h
        · cases h; exact put_grow _ _ _ _ hh
        · cases h
    · cases h
  | ite e a b iha ihb =>
    intro l s l' s' h hh
    rw [exec] at h
    split at h
    · exact iha _ _ _ _ h hh
    · exact ihb _ _ _ _ h hh
    · cases h
  | loop e b ihb =>
    intro l s l' s' h hh
    rw [exec] at h
    exact while_grow n ihb _ _ _ _ _ h hh
  | each m e b ihb =>
    intro l s l' s' h hh
    rw [exec] at h
    split at h
    · exact iter_grow m n ihb _ _ _ _ _ h hh
    · cases h

/-! ## Pre-parsing -/

theorem addVars_sub (clear : Bool) (vs ns : List Str) : ∀ n ∈ vs, n ∈ addVars clear vs ns := by
  induction ns generalizing vs with
  | nil => intro n h; exact h
  | cons m ms ih =>
    intro n h
    rw [addVars]
    split
    · exact ih vs n h
    · exact ih _ n (by simp [h])

theorem addVars_mem (vs ns : List Str) :
    ∀ n ∈ ns, special n = false → n ∈ addVars false vs ns := by
  induction ns generalizing vs with
  | nil => intro n h; cases h
  | cons m ms ih =>
    intro n h hs
    rw [addVars]
    cases h with
    | head =>
      split
      · rename_i hc
        simp only [hs, Bool.false_or, List.contains_eq_mem, decide_eq_true_eq] at hc
        exact addVars_sub _ _ _ _ hc
      · exact addVars_sub _ _ _ _ (by simp)
    | tail _ h =>
      split
      · exact ih vs n h hs
      · exact ih _ n h hs

theorem addVars_of (clear : Bool) (vs ns : List Str) :
    ∀ n ∈ addVars clear vs ns, n ∈ vs ∨ n ∈ ns := by
  induction ns generalizing vs with
  | nil => intro n h; exact Or.inl h
  | cons m ms ih =>
    intro n h
    rw [addVars] at h
    split at h
    · rcases ih vs n h with h | h
      · exact Or.inl h
      · exact Or.inr (by simp [h])
    · rcases ih _ n h with h | h
      · rcases List.mem_append.1 h with h | h
        · exact Or.inl h
        · exact Or.inr (by simp at h; simp [h])
      · exact Or.inr (by simp [h])

/-- All the expressions in a line. -/
def Top.exprs : Top → List Expr
  | .line s => s.exprs
  | .clear => []
  | .depdb _ e => [e]

theorem expr_uses {e : Expr} {n : Str} : e.Uses n ↔ n ∈ e.refs := by
  constructor
  · intro h
    induction h <;> simp_all [Expr.refs]
  · induction e with
    | lit v => simp [Expr.refs]
    | var m => simp only [Expr.refs, List.mem_singleton]; rintro rfl; exact .var
    | computed e ih => exact fun h => .computed (ih h)
    | op k a b iha ihb =>
      simp only [Expr.refs, List.mem_append]
      rintro (h | h)
      · exact .opl (iha h)
      · exact .opr (ihb h)
    | call f a ih => exact fun h => .call (ih h)
    | callc f a ihf iha =>
      simp only [Expr.refs, List.mem_append]
      rintro (h | h)
      · exact .name (ihf h)
      · exact .arg (iha h)
    | cond c a b ihc iha ihb =>
      simp only [Expr.refs, List.mem_append]
      rintro ((h | h) | h)
      · exact .cond (ihc h)
      · exact .yes (iha h)
      · exact .no (ihb h)

theorem scr_uses {s : Scr} {n : Str} : s.Uses n ↔ ∃ e ∈ s.exprs, n ∈ e.refs := by
  constructor
  · intro h
    induction h with
    | seql _ ih => obtain ⟨e, h1, h2⟩ := ih; exact ⟨e, by simp [Scr.exprs, h1], h2⟩
    | seqr _ ih => obtain ⟨e, h1, h2⟩ := ih; exact ⟨e, by simp [Scr.exprs, h1], h2⟩
    | yes _ ih => obtain ⟨e, h1, h2⟩ := ih; exact ⟨e, by simp [Scr.exprs, h1], h2⟩
    | no _ ih => obtain ⟨e, h1, h2⟩ := ih; exact ⟨e, by simp [Scr.exprs, h1], h2⟩
    | loop _ ih => obtain ⟨e, h1, h2⟩ := ih; exact ⟨e, by simp [Scr.exprs, h1], h2⟩
    | each _ ih => obtain ⟨e, h1, h2⟩ := ih; exact ⟨e, by simp [Scr.exprs, h1], h2⟩
    | assign h => exact ⟨_, by simp [Scr.exprs], expr_uses.1 h⟩
    | append h => exact ⟨_, by simp [Scr.exprs], expr_uses.1 h⟩
    | cmd h => exact ⟨_, by simp [Scr.exprs], expr_uses.1 h⟩
    | set h => exact ⟨_, by simp [Scr.exprs], expr_uses.1 h⟩
    | @setName e m n h => exact ⟨m, by simp [Scr.exprs], expr_uses.1 h⟩
    | cond h => exact ⟨_, by simp [Scr.exprs], expr_uses.1 h⟩
    | while_ h => exact ⟨_, by simp [Scr.exprs], expr_uses.1 h⟩
    | over h => exact ⟨_, by simp [Scr.exprs], expr_uses.1 h⟩
  · induction s with
    | skip => simp [Scr.exprs]
    | seq a b iha ihb =>
      rintro ⟨e, h1, h2⟩
      rcases List.mem_append.1 (show e ∈ a.exprs ++ b.exprs from h1) with h | h
      · exact .seql (iha ⟨e, h, h2⟩)
      · exact .seqr (ihb ⟨e, h, h2⟩)
    | assign m x =>
      rintro ⟨e, h1, h2⟩; cases List.mem_singleton.1 h1; exact .assign (expr_uses.2 h2)
    | append m x =>
      rintro ⟨e, h1, h2⟩; cases List.mem_singleton.1 h1; exact .append (expr_uses.2 h2)
    | cmd x =>
      rintro ⟨e, h1, h2⟩; cases List.mem_singleton.1 h1; exact .cmd (expr_uses.2 h2)
    | set x y =>
      rintro ⟨e, h1, h2⟩
      simp only [Scr.exprs, List.mem_cons, List.not_mem_nil, or_false] at h1
      rcases h1 with rfl | rfl
      · exact .set (expr_uses.2 h2)
      · exact .setName (expr_uses.2 h2)
    | ite c a b iha ihb =>
      rintro ⟨e, h1, h2⟩
      simp only [Scr.exprs, List.mem_cons, List.mem_append] at h1
      rcases h1 with rfl | h | h
      · exact .cond (expr_uses.2 h2)
      · exact .yes (iha ⟨e, h, h2⟩)
      · exact .no (ihb ⟨e, h, h2⟩)
    | loop c b ih =>
      rintro ⟨e, h1, h2⟩
      simp only [Scr.exprs, List.mem_cons] at h1
      rcases h1 with rfl | h
      · exact .while_ (expr_uses.2 h2)
      · exact .loop (ih ⟨e, h, h2⟩)
    | each m c b ih =>
      rintro ⟨e, h1, h2⟩
      simp only [Scr.exprs, List.mem_cons] at h1
      rcases h1 with rfl | h
      · exact .over (expr_uses.2 h2)
      · exact .each (ih ⟨e, h, h2⟩)

theorem top_uses {t : Top} {n : Str} : t.Uses n ↔ ∃ e ∈ t.exprs, n ∈ e.refs := by
  cases t with
  | line s =>
    refine Iff.trans ?_ scr_uses
    exact ⟨fun h => by cases h; assumption, .line⟩
  | clear =>
    constructor
    · intro h; cases h
    · rintro ⟨e, h, _⟩; cases h
  | depdb k x =>
    constructor
    · intro h; cases h with | depdb h => exact ⟨x, by simp [Top.exprs], expr_uses.1 h⟩
    · rintro ⟨e, h1, h2⟩
      cases List.mem_singleton.1 h1
      exact .depdb (expr_uses.2 h2)

/-- What is known after pre-parsing some lines. -/
structure PInv (S : Sem σ ξ ρ) (p : Script) (ts : List Top) : Prop where
  vars : p.clear = false → ∀ t ∈ ts, ∀ e ∈ t.exprs, ∀ n ∈ e.refs, special n = false → n ∈ p.vars
  from_ : ∀ n ∈ p.vars, ∃ t ∈ ts, ∃ e ∈ t.exprs, n ∈ e.refs
  imp : p.isImpure = false → ∀ a ∈ p.body, ∀ e ∈ a.exprs, ∀ f ∈ e.calls, impure S f = false
  comp : p.computed = false → ∀ a ∈ p.body, ∀ e ∈ a.exprs, e.hasComputed = false
  lines : ts.filterMap Top.line? = p.preamble.filterMap Top.line? ++ p.body
  deps : ts.countP (fun t => match t with | .depdb _ _ => true | _ => false) =
    p.preamble.countP (fun t => match t with | .depdb _ _ => true | _ => false)
  asg : ∀ a, Top.line a ∈ ts → a.assigned.any special = false
  pre : ∀ t ∈ p.preamble, t ∈ ts
  bod : ∀ a ∈ p.body, Top.line a ∈ ts
  last : p.preamble ≠ [] → ∃ ts' k e, p.preamble = ts' ++ [.depdb k e]

/-- The flags after some expressions, and the variables. -/
theorem foldl_note (S : Sem σ ξ ρ) (es : List Expr) (p : Script) :
    (es.foldl (Script.note S) p).clear = p.clear ∧
    (es.foldl (Script.note S) p).value = p.value ∧
    (es.foldl (Script.note S) p).preamble = p.preamble ∧
    (es.foldl (Script.note S) p).body = p.body ∧
    (∀ n ∈ p.vars, n ∈ (es.foldl (Script.note S) p).vars) ∧
    (p.clear = false → ∀ e ∈ es, ∀ n ∈ e.refs, special n = false →
      n ∈ (es.foldl (Script.note S) p).vars) ∧
    (∀ n ∈ (es.foldl (Script.note S) p).vars, n ∈ p.vars ∨ ∃ e ∈ es, n ∈ e.refs) ∧
    ((es.foldl (Script.note S) p).isImpure = false →
      p.isImpure = false ∧ ∀ e ∈ es, ∀ f ∈ e.calls, impure S f = false) ∧
    ((es.foldl (Script.note S) p).computed = false →
      p.computed = false ∧ ∀ e ∈ es, e.hasComputed = false) := by
  induction es generalizing p with
  | nil => simp
  | cons e es ih =>
    obtain ⟨h1, h2, h3, h4, h5, h6, h7, h8, h9⟩ := ih (p.note S e)
    rw [List.foldl_cons]
    refine ⟨h1, h2, h3, h4, ?_, ?_, ?_, ?_, ?_⟩
    · intro n hn; exact h5 n (addVars_sub _ _ _ n hn)
    · intro hc e' he' n hn hs
      cases he' with
      | head =>
        refine h5 n ?_
        show n ∈ addVars p.clear p.vars e.refs
        rw [hc]; exact addVars_mem _ _ n hn hs
      | tail _ he' => exact h6 hc e' he' n hn hs
    · intro n hn
      rcases h7 n hn with h | ⟨e', he', h⟩
      · rcases addVars_of _ _ _ n h with h | h
        · exact Or.inl h
        · exact Or.inr ⟨e, by simp, h⟩
      · exact Or.inr ⟨e', by simp [he'], h⟩
    · intro hi
      obtain ⟨a, b⟩ := h8 hi
      simp only [Script.note, Bool.or_eq_false_iff, List.any_eq_false] at a
      refine ⟨a.1, ?_⟩
      intro e' he'
      cases he' with
      | head => intro f hf; simpa using a.2 f hf
      | tail _ he' => exact b e' he'
    · intro hi
      obtain ⟨a, b⟩ := h9 hi
      simp only [Script.note, Bool.or_eq_false_iff] at a
      refine ⟨a.1, ?_⟩
      intro e' he'
      cases he' with
      | head => exact a.2
      | tail _ he' => exact b e' he'

theorem filterMap_lines (as : List Scr) :
    (as.map Top.line).filterMap Top.line? = as := by
  induction as with
  | nil => rfl
  | cons a as ih => simp [Top.line?, ih]

theorem countP_lines (as : List Scr) :
    (as.map Top.line).countP (fun t => match t with | .depdb _ _ => true | _ => false) = 0 := by
  induction as with
  | nil => rfl
  | cons a as ih => simp [ih]

theorem preLine_inv (S : Sem σ ξ ρ) (p q : Script) (ts : List Top) (t : Top)
    (hi : PInv S p ts) (h : preLine S p t = some q) : PInv S q (ts ++ [t]) := by
  cases t with
  | line a =>
    simp only [preLine] at h
    split at h
    · cases h
    · rename_i hasg
      cases h
      obtain ⟨h1, h2, h3, h4, h5, h6, h7, h8, h9⟩ := foldl_note S a.exprs p
      refine ⟨?_, ?_, ?_, ?_, ?_, ?_, ?_, ?_, ?_, ?_⟩
      · intro hc t ht e he n hn hs
        have hc' : p.clear = false := by rw [← h1]; exact hc
        rcases List.mem_append.1 ht with ht | ht
        · exact h5 n (hi.vars hc' t ht e he n hn hs)
        · simp only [List.mem_singleton] at ht; subst ht
          exact h6 hc' e he n hn hs
      · intro n hn
        rcases h7 n hn with h | ⟨e, he, h⟩
        · obtain ⟨t, ht, r⟩ := hi.from_ n h
          exact ⟨t, by simp [ht], r⟩
        · exact ⟨.line a, by simp, e, he, h⟩
      · intro hc b hb e he f hf
        obtain ⟨c1, c2⟩ := h8 hc
        simp only [h4] at hb
        rcases List.mem_append.1 hb with hb | hb
        · exact hi.imp c1 b hb e he f hf
        · simp only [List.mem_singleton] at hb; subst hb; exact c2 e he f hf
      · intro hc b hb e he
        obtain ⟨c1, c2⟩ := h9 hc
        simp only [h4] at hb
        rcases List.mem_append.1 hb with hb | hb
        · exact hi.comp c1 b hb e he
        · simp only [List.mem_singleton] at hb; subst hb; exact c2 e he
      · simp only [h3, h4, List.filterMap_append, hi.lines, List.append_assoc]
        rfl
      · simp only [h3, List.countP_append, hi.deps]
        simp
      · intro b hb
        rcases List.mem_append.1 hb with hb | hb
        · exact hi.asg b hb
        · simp only [List.mem_singleton, Top.line.injEq] at hb; subst hb
          simpa using hasg
      · intro t ht; simp only [h3] at ht; exact List.mem_append_left _ (hi.pre t ht)
      · intro b hb
        simp only [h4] at hb
        rcases List.mem_append.1 hb with hb | hb
        · exact List.mem_append_left _ (hi.bod b hb)
        · simp only [List.mem_singleton] at hb; subst hb; simp
      · intro hn; simp only [h3] at hn ⊢; exact hi.last hn
  | clear =>
    simp only [preLine] at h
    split at h
    · cases h
    · rename_i hcl
      cases h
      simp only [Bool.or_eq_true, Bool.not_eq_true', not_or, Bool.not_eq_true,
        Bool.not_eq_false] at hcl
      refine ⟨?_, ?_, ?_, ?_, ?_, ?_, ?_, ?_, ?_, ?_⟩
      · intro hc; cases hc
      · intro n hn; cases hn
      · exact hi.imp
      · exact hi.comp
      · simp only [List.filterMap_append, hi.lines]
        simp [Top.line?]
      · simp [List.countP_append, hi.deps]
      · intro b hb
        rcases List.mem_append.1 hb with hb | hb
        · exact hi.asg b hb
        · simp at hb
      · intro t ht; exact List.mem_append_left _ (hi.pre t ht)
      · intro b hb; exact List.mem_append_left _ (hi.bod b hb)
      · exact hi.last
  | depdb k e =>
    simp only [preLine, Option.some.injEq] at h
    subst h
    refine ⟨?_, ?_, ?_, ?_, ?_, ?_, ?_, ?_, ?_, ?_⟩
    · intro hc t ht e' he n hn hs
      have hc' : p.clear = false := hc
      simp only [Script.note, hc']
      rcases List.mem_append.1 ht with ht | ht
      · exact addVars_sub _ _ _ _ (hi.vars hc' t ht e' he n hn hs)
      · simp only [List.mem_singleton] at ht; subst ht
        simp only [Top.exprs, List.mem_singleton] at he; subst he
        exact addVars_mem _ _ n hn hs
    · intro n hn
      simp only [Script.note] at hn
      rcases addVars_of _ _ _ n hn with h | h
      · obtain ⟨t, ht, r⟩ := hi.from_ n h
        exact ⟨t, by simp [ht], r⟩
      · exact ⟨.depdb k e, by simp, e, by simp [Top.exprs], h⟩
    · intro _ a ha; simp [Script.note] at ha
    · intro _ a ha; simp [Script.note] at ha
    · simp only [Script.note, List.filterMap_append, hi.lines, filterMap_lines]
      simp
    · simp only [Script.note, List.countP_append, hi.deps, countP_lines]
      omega
    · intro b hb
      rcases List.mem_append.1 hb with hb | hb
      · exact hi.asg b hb
      · simp at hb
    · intro t ht
      simp only [Script.note, List.mem_append, List.mem_map, List.mem_singleton] at ht
      rcases ht with (ht | ⟨a, ha, rfl⟩) | rfl
      · exact List.mem_append_left _ (hi.pre t ht)
      · exact List.mem_append_left _ (hi.bod a ha)
      · simp
    · intro b hb; simp [Script.note] at hb
    · intro _; exact ⟨_, k, e, rfl⟩

theorem preLines_inv (S : Sem σ ξ ρ) (ts : List Top) : ∀ (p q : Script) (ts0 : List Top),
    PInv S p ts0 → preLines S p ts = some q → PInv S q (ts0 ++ ts) := by
  induction ts with
  | nil => intro p q ts0 hi h; cases h; simpa using hi
  | cons t ts ih =>
    intro p q ts0 hi h
    rw [preLines] at h
    split at h
    · rename_i p' hp
      have := ih p' q (ts0 ++ [t]) (preLine_inv S p p' ts0 t hi hp) h
      simpa using this
    · cases h

theorem preParse_inv (S : Sem σ ξ ρ) (ts : List Top) (p : Script)
    (h : preParse S ts = some p) : PInv S p ts ∧ p.isImpure = false ∧ p.computed = false := by
  unfold preParse at h
  split at h
  · rename_i q hq
    split at h
    · cases h
    · rename_i hc
      cases h
      simp only [Bool.or_eq_true, not_or, Bool.not_eq_true] at hc
      refine ⟨?_, hc.1, hc.2⟩
      have := preLines_inv S ts {} p [] ?_ hq
      · simpa using this
      · exact ⟨by simp, by simp, by simp, by simp, rfl, rfl, by simp, by simp, by simp, by simp⟩
  · cases h

theorem preLine_clear (S : Sem σ ξ ρ) (p q : Script) (t : Top) (h : preLine S p t = some q)
    (ht : t ≠ .clear) : q.clear = p.clear := by
  cases t with
  | line a =>
    simp only [preLine] at h
    split at h
    · cases h
    · cases h; exact (foldl_note S a.exprs p).1
  | clear => exact absurd rfl ht
  | depdb k e => simp only [preLine, Option.some.injEq] at h; subst h; rfl

theorem preLines_clear (S : Sem σ ξ ρ) (ts : List Top) : ∀ (p q : Script),
    preLines S p ts = some q → Top.clear ∉ ts → q.clear = p.clear := by
  induction ts with
  | nil => intro p q h _; cases h; rfl
  | cons t ts ih =>
    intro p q h hc
    simp only [List.mem_cons, not_or] at hc
    rw [preLines] at h
    split at h
    · rename_i p' hp
      rw [ih p' q h hc.2, preLine_clear S p p' t hp (Ne.symm hc.1)]
    · cases h

theorem preParse_clear (S : Sem σ ξ ρ) (ts : List Top) (p : Script) (h : preParse S ts = some p)
    (hc : Top.clear ∉ ts) : p.clear = false := by
  unfold preParse at h
  split at h
  · rename_i q hq
    split at h
    · cases h
    · cases h; exact preLines_clear S ts {} p hq hc
  · cases h

/-- A line is in the body unless it is followed by one that records something. -/
theorem preLine_keep (S : Sem σ ξ ρ) (p q : Script) (t : Top) (h : preLine S p t = some q)
    (ht : ∀ k e, t ≠ .depdb k e) : ∀ a ∈ p.body, a ∈ q.body := by
  intro a ha
  cases t with
  | line b =>
    simp only [preLine] at h
    split at h
    · cases h
    · cases h
      simp only [(foldl_note S b.exprs p).2.2.2.1]
      exact List.mem_append_left _ ha
  | clear =>
    simp only [preLine] at h
    split at h
    · cases h
    · cases h; exact ha
  | depdb k e => exact absurd rfl (ht k e)

theorem preLines_append (S : Sem σ ξ ρ) (ts us : List Top) : ∀ (p : Script),
    preLines S p (ts ++ us) = (preLines S p ts).bind fun q => preLines S q us := by
  induction ts with
  | nil => intro p; rfl
  | cons t ts ih =>
    intro p
    rw [List.cons_append, preLines, preLines]
    split
    · exact ih _
    · rfl

theorem preLines_keep (S : Sem σ ξ ρ) (us : List Top) : ∀ (p q : Script),
    preLines S p us = some q → (∀ t ∈ us, ∀ k e, t ≠ .depdb k e) →
      ∀ a ∈ p.body, a ∈ q.body := by
  induction us with
  | nil => intro p q h _ a ha; cases h; exact ha
  | cons t us ih =>
    intro p q h hu a ha
    rw [preLines] at h
    split at h
    · rename_i p' hp
      exact ih p' q h (fun u hu' => hu u (by simp [hu'])) a
        (preLine_keep S p p' t hp (hu t (by simp)) a ha)
    · cases h

/-- Whether this is one of the lines that record something. -/
def isDep : Top → Bool
  | .depdb _ _ => true
  | _ => false

theorem preParse_body (S : Sem σ ξ ρ) (ts us : List Top) (a : Scr) (p : Script)
    (hu : ∀ t ∈ us, isDep t = false) (h : preParse S (ts ++ .line a :: us) = some p) :
    a ∈ p.body := by
  unfold preParse at h
  split at h
  · rename_i q hq
    split at h
    · cases h
    · cases h
      rw [preLines_append, Option.bind_eq_some_iff] at hq
      obtain ⟨q, _, hq⟩ := hq
      rw [preLines] at hq
      split at hq
      · rename_i q' hq'
        refine preLines_keep S us q' p hq ?_ a ?_
        · intro t ht k e he; have := hu t ht; rw [he] at this; cases this
        · simp only [preLine] at hq'
          split at hq'
          · cases hq'
          · cases hq'; simp
      · cases hq
  · cases h

end Verif.Recipe
