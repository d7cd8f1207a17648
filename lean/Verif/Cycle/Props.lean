import Verif.Cycle.Model

/-!
Property C23: dependency cycles are detected.  For every dependency graph, every set of
targets to match and every interleaving.
-/
namespace Verif.Cycle

variable {g : Key → List Key}

theorem set_same (f : Key → St) (k : Key) (v : St) : set f k v k = v := if_pos rfl
theorem set_other (f : Key → St) {k x : Key} (v : St) (h : x ≠ k) : set f k v x = f x := if_neg h

theorem cycle_iff (stack : List Key) (d : Key) :
    (dependencyCycle stack d.action d.target).isSome = true ↔ d ∈ stack := by
  unfold dependencyCycle
  rw [List.find?_isSome]
  constructor
  · rintro ⟨l, hl, h⟩
    rw [Bool.and_eq_true, beq_iff_eq, beq_iff_eq] at h
    have : l = d := by cases l; cases d; simp_all
    exact this ▸ hl
  · intro h
    exact ⟨d, h, by simp⟩

/-- The steps, as a relation. -/
inductive Step (g : Key → List Key) (s : S) : Op → S → Prop
  | root {k : Key} : s.st k = .free → s.report = none →
      Step g s (.root k) { s with st := set s.st k (.locked [] (g k)) }
  | got {k d : Key} {up rem : List Key} : s.st k = .locked up rem → s.report = none → d ∈ rem →
      s.st d = .applied → Step g s (.ask k d) { s with st := set s.st k (.locked up (rem.erase d)) }
  | push {k d : Key} {up rem : List Key} : s.st k = .locked up rem → s.report = none → d ∈ rem →
      s.st d = .free → Step g s (.ask k d) { s with st := set s.st d (.locked (k :: up) (g d)) }
  | report {k d : Key} {up rem up' rem' : List Key} : s.st k = .locked up rem → s.report = none →
      d ∈ rem → s.st d = .locked up' rem' → d ∈ k :: up →
      Step g s (.ask k d) { s with report := some d }
  | finish {k : Key} {up : List Key} : s.st k = .locked up [] → s.report = none →
      Step g s (.finish k) { s with st := set s.st k .applied }

theorem step_iff {s t : S} {o : Op} : step g s o = some t ↔ Step g s o t := by
  constructor
  · intro e
    unfold step at e
    split at e
    · split at e
      · split at e <;> cases e
        exact .root (by assumption) (by assumption)
      · cases e
    · split at e
      · rename_i k d up rem hk
        split at e
        · rename_i hc
          split at e
          · cases e; exact .got hk hc.1 hc.2 (by assumption)
          · cases e; exact .push hk hc.1 hc.2 (by assumption)
          · rename_i hd
            split at e
            · rename_i h
              cases e
              exact .report hk hc.1 hc.2 hd ((cycle_iff _ _).1 (by rw [h]; rfl))
            · cases e
        · cases e
      · cases e
    · split at e
      · split at e <;> cases e
        exact .finish (by assumption) (by assumption)
      · cases e
  · intro h
    cases h with
    | root h1 h2 => simp only [step, h1, h2, if_true]
    | got h1 h2 h3 h4 => simp only [step, h1, h2, h3, h4, and_self, if_true]
    | push h1 h2 h3 h4 => simp only [step, h1, h2, h3, h4, and_self, if_true]
    | @report k d up rem up' rem' h1 h2 h3 h4 h5 =>
      simp only [step, h1, h2, h3, h4, and_self, if_true]
      have := (cycle_iff _ _).2 h5
      cases hh : dependencyCycle (k :: up) d.action d.target with
      | none => rw [hh] at this; cases this
      | some _ => rfl
    | finish h1 h2 => simp only [step, h1, h2, if_true]

/-- The stack below the lock of `k` is a chain of locked targets each of which needs the
previous one. -/
def Chain (g : Key → List Key) (s : S) : Key → List Key → Prop
  | _, [] => True
  | k, p :: up => k ∈ g p ∧ (∃ rem, s.st p = .locked up rem ∧ k ∈ rem) ∧ Chain g s p up

structure Inv (g : Key → List Key) (s : S) : Prop where
  sub : ∀ k up rem, s.st k = .locked up rem → ∀ d ∈ rem, d ∈ g k
  chain : ∀ k up rem, s.st k = .locked up rem → Chain g s k up
  closed : ∀ k up rem, s.st k = .locked up rem → ∀ d ∈ g k, d ∈ rem ∨ s.st d = .applied
  fin : ∃ l : List Key, ∀ k up rem, s.st k = .locked up rem → k ∈ l
  rank : ∃ r : Key → Nat, ∀ k, s.st k = .applied → ∀ d ∈ g k, s.st d = .applied ∧ r d < r k
  rep : ∀ d, s.report = some d → Path g d d

theorem chain_mono {s s' : S} (hs : ∀ p up rem, s.st p = .locked up rem →
    ∀ k, s.st k ≠ .applied → k ∈ rem → ∃ rem', s'.st p = .locked up rem' ∧ k ∈ rem') :
    ∀ (up : List Key) (k : Key), s.st k ≠ .applied → Chain g s k up → Chain g s' k up := by
  intro up
  induction up with
  | nil => intro k _ _; trivial
  | cons p up ih =>
    rintro k hk ⟨h1, ⟨rem, h2, h3⟩, h4⟩
    exact ⟨h1, hs p up rem h2 k hk h3, ih p (by rw [h2]; intro h; cases h) h4⟩

/-- A chain leads from any of its members to the first one. -/
theorem chain_path {s : S} : ∀ (up : List Key) (k d : Key), Chain g s k up → d ∈ up →
    Path g d k := by
  intro up
  induction up with
  | nil => intro k d _ h; cases h
  | cons p up ih =>
    rintro k d ⟨h1, _, h4⟩ hd
    rcases List.mem_cons.1 hd with rfl | hd
    · exact .one h1
    · exact (ih p d h4 hd).trans (.one h1)

theorem listMax (r : Key → Nat) (l : List Key) : ∃ m, ∀ d ∈ l, r d < m := by
  induction l with
  | nil => exact ⟨0, fun d h => by cases h⟩
  | cons a l ih =>
    obtain ⟨m, hm⟩ := ih
    refine ⟨m + r a + 1, ?_⟩
    intro d hd
    rcases List.mem_cons.1 hd with rfl | hd
    · omega
    · have := hm d hd; omega

theorem inv_step {s t : S} {o : Op} (h : Inv g s) (e : Step g s o t) : Inv g t := by
  obtain ⟨hsub, hch, hcl, ⟨l, hl⟩, ⟨r, hr⟩, hrep⟩ := h
  -- What a change of `k` to a state that is not applied does to the rest.
  cases e with
  | @root k hk hre =>
    have hne : ∀ {x}, s.st x ≠ .free → x ≠ k := fun hx h => hx (h ▸ hk)
    have hap : ∀ x, set s.st k (.locked [] (g k)) x = .applied ↔ s.st x = .applied := by
      intro x
      by_cases hx : x = k
      · subst hx; rw [set_same, hk]; simp
      · rw [set_other _ _ hx]
    have hmono : ∀ (up : List Key) (x : Key), s.st x ≠ .applied → Chain g s x up →
        Chain g { s with st := set s.st k (.locked [] (g k)) } x up :=
      chain_mono fun p up rem hp x _ hx =>
        ⟨rem, by dsimp only; rw [set_other _ _ (hne (by rw [hp]; intro h; cases h)), hp], hx⟩
    refine ⟨?_, ?_, ?_, ⟨k :: l, ?_⟩, ⟨r, ?_⟩, hrep⟩
    · intro x up rem hx d hd
      dsimp only at hx
      by_cases hxk : x = k
      · subst hxk; rw [set_same] at hx; cases hx; exact hd
      · rw [set_other _ _ hxk] at hx; exact hsub x up rem hx d hd
    · intro x up rem hx
      dsimp only at hx
      by_cases hxk : x = k
      · subst hxk; rw [set_same] at hx; cases hx; trivial
      · rw [set_other _ _ hxk] at hx
        exact hmono up x (by rw [hx]; intro h; cases h) (hch x up rem hx)
    · intro x up rem hx d hd
      dsimp only at hx
      dsimp only
      rw [hap]
      by_cases hxk : x = k
      · subst hxk; rw [set_same] at hx; cases hx; exact Or.inl hd
      · rw [set_other _ _ hxk] at hx; exact hcl x up rem hx d hd
    · intro x up rem hx
      dsimp only at hx
      by_cases hxk : x = k
      · subst hxk; exact List.mem_cons_self
      · rw [set_other _ _ hxk] at hx; exact List.mem_cons_of_mem _ (hl x up rem hx)
    · intro x hx d hd
      dsimp only at hx ⊢
      rw [hap] at hx ⊢
      exact hr x hx d hd
  | @push k q up₀ rem₀ hk hre hd₀ hq =>
    have hne : ∀ {x}, s.st x ≠ .free → x ≠ q := fun hx h => hx (h ▸ hq)
    have hkq : k ≠ q := hne (by rw [hk]; intro h; cases h)
    have hap : ∀ x, set s.st q (.locked (k :: up₀) (g q)) x = .applied ↔ s.st x = .applied := by
      intro x
      by_cases hx : x = q
      · subst hx; rw [set_same, hq]; simp
      · rw [set_other _ _ hx]
    have hmono : ∀ (up : List Key) (x : Key), s.st x ≠ .applied → Chain g s x up →
        Chain g { s with st := set s.st q (.locked (k :: up₀) (g q)) } x up :=
      chain_mono fun p up rem hp x _ hx =>
        ⟨rem, by dsimp only; rw [set_other _ _ (hne (by rw [hp]; intro h; cases h)), hp], hx⟩
    refine ⟨?_, ?_, ?_, ⟨q :: l, ?_⟩, ⟨r, ?_⟩, hrep⟩
    · intro x up rem hx d hd
      dsimp only at hx
      by_cases hxk : x = q
      · subst hxk; rw [set_same] at hx; cases hx; exact hd
      · rw [set_other _ _ hxk] at hx; exact hsub x up rem hx d hd
    · intro x up rem hx
      dsimp only at hx
      by_cases hxk : x = q
      · subst hxk; rw [set_same] at hx; cases hx
        refine ⟨hsub k _ _ hk _ hd₀, ⟨rem₀, ?_, hd₀⟩, ?_⟩
        · dsimp only; rw [set_other _ _ hkq, hk]
        · exact hmono up₀ k (by rw [hk]; intro h; cases h) (hch k _ _ hk)
      · rw [set_other _ _ hxk] at hx
        exact hmono up x (by rw [hx]; intro h; cases h) (hch x up rem hx)
    · intro x up rem hx d hd
      dsimp only at hx
      dsimp only
      rw [hap]
      by_cases hxk : x = q
      · subst hxk; rw [set_same] at hx; cases hx; exact Or.inl hd
      · rw [set_other _ _ hxk] at hx; exact hcl x up rem hx d hd
    · intro x up rem hx
      dsimp only at hx
      by_cases hxk : x = q
      · subst hxk; exact List.mem_cons_self
      · rw [set_other _ _ hxk] at hx; exact List.mem_cons_of_mem _ (hl x up rem hx)
    · intro x hx d hd
      dsimp only at hx ⊢
      rw [hap] at hx ⊢
      exact hr x hx d hd
  | @got k q up₀ rem₀ hk hre hd₀ hq =>
    have hap : ∀ x, set s.st k (.locked up₀ (rem₀.erase q)) x = .applied ↔ s.st x = .applied := by
      intro x
      by_cases hx : x = k
      · subst hx; rw [set_same, hk]; simp
      · rw [set_other _ _ hx]
    have hmono : ∀ (up : List Key) (x : Key), s.st x ≠ .applied → Chain g s x up →
        Chain g { s with st := set s.st k (.locked up₀ (rem₀.erase q)) } x up := by
      apply chain_mono
      intro p up rem hp x hxa hx
      by_cases hpk : p = k
      · subst hpk
        rw [hk] at hp
        cases hp
        refine ⟨rem₀.erase q, set_same _ _ _, ?_⟩
        rw [List.mem_erase_of_ne]
        · exact hx
        · intro h; subst h; exact hxa hq
      · exact ⟨rem, by dsimp only; rw [set_other _ _ hpk, hp], hx⟩
    refine ⟨?_, ?_, ?_, ⟨l, ?_⟩, ⟨r, ?_⟩, hrep⟩
    · intro x up rem hx d hd
      dsimp only at hx
      by_cases hxk : x = k
      · subst hxk; rw [set_same] at hx; cases hx
        exact hsub x _ _ hk d (List.mem_of_mem_erase hd)
      · rw [set_other _ _ hxk] at hx; exact hsub x up rem hx d hd
    · intro x up rem hx
      dsimp only at hx
      by_cases hxk : x = k
      · subst hxk; rw [set_same] at hx; cases hx
        exact hmono _ x (by rw [hk]; intro h; cases h) (hch x _ _ hk)
      · rw [set_other _ _ hxk] at hx
        exact hmono up x (by rw [hx]; intro h; cases h) (hch x up rem hx)
    · intro x up rem hx d hd
      dsimp only at hx
      dsimp only
      rw [hap]
      by_cases hxk : x = k
      · subst hxk; rw [set_same] at hx; cases hx
        rcases hcl x _ _ hk d hd with h | h
        · by_cases hdq : d = q
          · subst hdq; exact Or.inr hq
          · exact Or.inl ((List.mem_erase_of_ne hdq).2 h)
        · exact Or.inr h
      · rw [set_other _ _ hxk] at hx; exact hcl x up rem hx d hd
    · intro x up rem hx
      dsimp only at hx
      by_cases hxk : x = k
      · subst hxk; exact hl x _ _ hk
      · rw [set_other _ _ hxk] at hx; exact hl x up rem hx
    · intro x hx d hd
      dsimp only at hx ⊢
      rw [hap] at hx ⊢
      exact hr x hx d hd
  | @report k q up₀ rem₀ up₁ rem₁ hk hre hd₀ hq hin =>
    have hmono : ∀ (up : List Key) (x : Key), s.st x ≠ .applied → Chain g s x up →
        Chain g { s with report := some q } x up :=
      chain_mono fun p up rem hp x _ hx => ⟨rem, hp, hx⟩
    refine ⟨hsub, fun x up rem hx => ?_, hcl, ⟨l, hl⟩, ⟨r, hr⟩, ?_⟩
    · exact hmono up x (by dsimp only at hx; rw [hx]; intro h; cases h) (hch x up rem hx)
    · intro d hd
      cases hd
      have he : Path g k q := .one (hsub k _ _ hk _ hd₀)
      rcases List.mem_cons.1 hin with rfl | hin
      · exact he
      · exact (chain_path up₀ k q (hch k _ _ hk) hin).trans he
  | @finish k up₀ hk hre =>
    have hmono : ∀ (up : List Key) (x : Key), s.st x ≠ .applied → Chain g s x up →
        Chain g { s with st := set s.st k .applied } x up := by
      apply chain_mono
      intro p up rem hp x hxa hx
      by_cases hpk : p = k
      · subst hpk
        rw [hk] at hp
        cases hp
        cases hx
      · exact ⟨rem, by dsimp only; rw [set_other _ _ hpk, hp], hx⟩
    have hap : ∀ x, s.st x = .applied → set s.st k .applied x = .applied := by
      intro x hx
      by_cases hxk : x = k
      · subst hxk; exact set_same _ _ _
      · rw [set_other _ _ hxk, hx]
    have hg : ∀ d ∈ g k, s.st d = .applied := by
      intro d hd
      rcases hcl k _ _ hk d hd with h | h
      · cases h
      · exact h
    obtain ⟨m, hm⟩ := listMax r (g k)
    refine ⟨?_, ?_, ?_, ⟨l, ?_⟩, ⟨fun x => if x = k then m else r x, ?_⟩, hrep⟩
    · intro x up rem hx d hd
      dsimp only at hx
      by_cases hxk : x = k
      · subst hxk; rw [set_same] at hx; cases hx
      · rw [set_other _ _ hxk] at hx; exact hsub x up rem hx d hd
    · intro x up rem hx
      dsimp only at hx
      by_cases hxk : x = k
      · subst hxk; rw [set_same] at hx; cases hx
      · rw [set_other _ _ hxk] at hx
        exact hmono up x (by rw [hx]; intro h; cases h) (hch x up rem hx)
    · intro x up rem hx d hd
      dsimp only at hx
      by_cases hxk : x = k
      · subst hxk; rw [set_same] at hx; cases hx
      · rw [set_other _ _ hxk] at hx
        rcases hcl x up rem hx d hd with h | h
        · exact Or.inl h
        · exact Or.inr (hap d h)
    · intro x up rem hx
      dsimp only at hx
      by_cases hxk : x = k
      · subst hxk; rw [set_same] at hx; cases hx
      · rw [set_other _ _ hxk] at hx; exact hl x up rem hx
    · intro x hx d hd
      dsimp only at hx ⊢
      have hdk : s.st d = .applied → d ≠ k := by
        intro h1 h2; subst h2; rw [hk] at h1; cases h1
      by_cases hxk : x = k
      · subst hxk
        refine ⟨hap d (hg d hd), ?_⟩
        rw [if_neg (hdk (hg d hd)), if_pos rfl]
        exact hm d hd
      · rw [set_other _ _ hxk] at hx
        obtain ⟨h1, h2⟩ := hr x hx d hd
        refine ⟨hap d h1, ?_⟩
        rw [if_neg (hdk h1), if_neg hxk]
        exact h2

theorem inv_init : Inv g init := by
  refine ⟨?_, ?_, ?_, ⟨[], ?_⟩, ⟨fun _ => 0, ?_⟩, ?_⟩
  all_goals first
    | (intro k up rem h; cases h; done)
    | (intro k h; cases h; done)

theorem inv_reach {n : Nat} {s : S} (h : Reach g n s) : Inv g s := by
  induction h with
  | init => exact inv_init
  | step _ e ih => exact inv_step ih (step_iff.1 e)

theorem sreach_reach {n : Nat} {s : S} (h : SReach g n s) : Reach g n s := by
  induction h with
  | init => exact .init
  | step _ _ e ih => exact .step ih e

/-- Nothing that was started can go on. -/
def Stuck (g : Key → List Key) (s : S) : Prop :=
  (∀ k d, step g s (.ask k d) = none) ∧ ∀ k, step g s (.finish k) = none

/-! ### The theorems -/

/-- A cycle is reported only if there is one, through the target that is reported. -/
theorem reported_is_cycle {n : Nat} {s : S} (h : Reach g n s) {d : Key}
    (hr : s.report = some d) : Path g d d := (inv_reach h).rep d hr

/-- A task that asks for a target that is locked further up in its own chain never waits: the
cycle is reported. -/
theorem own_chain_reported {s : S} {k d : Key} {up rem up' rem' : List Key}
    (hk : s.st k = .locked up rem) (hr : s.report = none) (hd : d ∈ rem)
    (hl : s.st d = .locked up' rem') (hin : d ∈ k :: up) :
    step g s (.ask k d) = some { s with report := some d } :=
  step_iff.2 (.report hk hr hd hl hin)

/-- From any list of targets each of which leads to another there is a cycle. -/
theorem cycle_of_closed : ∀ (n : Nat) (l : List Key), l.length = n → l ≠ [] →
    (∀ k ∈ l, ∃ d ∈ l, Path g k d) → ∃ k, Path g k k := by
  intro n
  induction n with
  | zero =>
    intro l hl hne
    exact absurd (List.length_eq_zero_iff.1 hl) hne
  | succ n ih =>
    intro l hl _ h
    cases l with
    | nil => cases hl
    | cons a l =>
      by_cases haa : Path g a a
      · exact ⟨a, haa⟩
      obtain ⟨b, hb, hab⟩ := h a List.mem_cons_self
      have hbl : b ∈ l := by
        rcases List.mem_cons.1 hb with rfl | hb
        · exact absurd hab haa
        · exact hb
      apply ih l (by simpa using hl) (List.ne_nil_of_mem hbl)
      intro k hk
      obtain ⟨d, hd, hp⟩ := h k (List.mem_cons_of_mem _ hk)
      rcases List.mem_cons.1 hd with rfl | hd
      · exact ⟨b, hbl, hp.trans hab⟩
      · exact ⟨d, hd, hp⟩

/-- A deadlock (no cycle is reported, something is still locked, everybody waits for others)
happens only if there is a dependency cycle. -/
theorem deadlock_only_if_cycle {n : Nat} {s : S} (h : Reach g n s) (hr : s.report = none)
    {k : Key} {up rem : List Key} (hk : s.st k = .locked up rem) (hs : Stuck g s) :
    ∃ k, Path g k k := by
  have hI := inv_reach h
  obtain ⟨l, hl⟩ := hI.fin
  -- The locked targets.
  let isL : Key → Bool := fun k => match s.st k with | .locked _ _ => true | _ => false
  have hisL : ∀ k, isL k = true ↔ ∃ up rem, s.st k = .locked up rem := by
    intro k
    show (match s.st k with | .locked _ _ => true | _ => false) = true ↔ _
    cases s.st k <;> simp
  apply cycle_of_closed _ (l.filter isL) rfl
  · exact List.ne_nil_of_mem (List.mem_filter.2 ⟨hl k up rem hk, (hisL k).2 ⟨up, rem, hk⟩⟩)
  · intro x hx
    obtain ⟨up', rem', hx'⟩ := (hisL x).1 (List.mem_filter.1 hx).2
    cases rem' with
    | nil =>
      have := hs.2 x
      rw [step_iff.2 (.finish hx' hr)] at this
      cases this
    | cons d rem' =>
      have hdm : d ∈ d :: rem' := List.mem_cons_self
      have hask := hs.1 x d
      cases hd : s.st d with
      | applied => rw [step_iff.2 (.got hx' hr hdm hd)] at hask; cases hask
      | free => rw [step_iff.2 (.push hx' hr hdm hd)] at hask; cases hask
      | locked u r =>
        exact ⟨d, List.mem_filter.2 ⟨hl d u r hd, (hisL d).2 ⟨u, r, hd⟩⟩,
          .one (hI.sub x _ _ hx' d hdm)⟩

/-- Without dependency cycles matching never stops before everything that was started is
done, and nothing is reported. -/
theorem acyclic_completes {n : Nat} {s : S} (ha : Acyclic g) (h : Reach g n s)
    (hs : Stuck g s) : s.report = none ∧ ∀ k up rem, s.st k ≠ .locked up rem := by
  have hr : s.report = none := by
    cases hh : s.report with
    | none => rfl
    | some d => exact absurd (reported_is_cycle h hh) (ha d)
  refine ⟨hr, ?_⟩
  intro k up rem hk
  obtain ⟨x, hx⟩ := deadlock_only_if_cycle h hr hk hs
  exact ha x hx

/-- What is matched has everything it needs matched, so a target that leads to a cycle is never
matched. -/
theorem cyclic_never_matched {n : Nat} {s : S} (h : Reach g n s) {k d : Key} (hp : Path g k d)
    (hc : Path g d d) : s.st k ≠ .applied := by
  obtain ⟨r, hr⟩ := (inv_reach h).rank
  have key : ∀ {a b : Key}, Path g a b → s.st a = .applied → s.st b = .applied ∧ r b < r a := by
    intro a b hp
    induction hp with
    | one hd => exact fun ha => hr _ ha _ hd
    | cons hd _ ih =>
      intro ha
      obtain ⟨h1, h2⟩ := hr _ ha _ hd
      obtain ⟨h3, h4⟩ := ih h1
      exact ⟨h3, by omega⟩
  intro hk
  obtain ⟨h1, _⟩ := key hp hk
  have := (key hc h1).2
  omega

/-! #### Termination -/

/-- What a target may still take. -/
def cost (g : Key → List Key) (s : S) (k : Key) : Nat :=
  match s.st k with
  | .free => (g k).length + 2
  | .locked _ rem => rem.length + 1
  | .applied => 0

def measure (g : Key → List Key) (s : S) (u : List Key) : Nat :=
  (u.map (cost g s)).sum + (if s.report = none then 1 else 0)

theorem sum_lt {f f' : Key → Nat} {u : List Key} {k : Key} (hk : k ∈ u) (hlt : f' k < f k)
    (hle : ∀ x, f' x ≤ f x) : (u.map f').sum < (u.map f).sum := by
  induction u with
  | nil => cases hk
  | cons a u ih =>
    simp only [List.map_cons, List.sum_cons]
    have hle' : (u.map f').sum ≤ (u.map f).sum := by
      clear ih hk
      induction u with
      | nil => exact Nat.le_refl _
      | cons b u ih => simp only [List.map_cons, List.sum_cons]; have := hle b; omega
    rcases List.mem_cons.1 hk with rfl | hk
    · omega
    · have := ih hk; have := hle a; omega

theorem cost_lt {s : S} {u : List Key} {k : Key} {v : St} (hk : k ∈ u)
    (hlt : cost g { s with st := set s.st k v } k < cost g s k) :
    measure g { s with st := set s.st k v } u < measure g s u := by
  unfold measure
  have := sum_lt hk hlt (fun x => by
    by_cases hx : x = k
    · subst hx; exact Nat.le_of_lt hlt
    · unfold cost; dsimp only; rw [set_other _ _ hx]; exact Nat.le_refl _)
  dsimp only
  omega

/-- Whatever is or has been locked is among the targets `u`. -/
theorem locked_mem {u : List Key} (hu : ∀ k ∈ u, ∀ d ∈ g k, d ∈ u) {s t : S} {o : Op}
    (hI : Inv g s) (ho : ∀ k, o = .root k → k ∈ u) (h : ∀ k, s.st k ≠ .free → k ∈ u)
    (e : Step g s o t) : ∀ k, t.st k ≠ .free → k ∈ u := by
  intro x hx
  cases e with
  | @root k hk _ =>
    by_cases hxk : x = k
    · subst hxk; exact ho x rfl
    · dsimp only at hx; rw [set_other _ _ hxk] at hx; exact h x hx
  | @push k q up₀ rem₀ hk _ hd _ =>
    by_cases hxk : x = q
    · subst hxk; exact hu k (h k (by rw [hk]; intro h; cases h)) _ (hI.sub k _ _ hk _ hd)
    · dsimp only at hx; rw [set_other _ _ hxk] at hx; exact h x hx
  | @got k q up₀ rem₀ hk _ hd _ =>
    by_cases hxk : x = k
    · subst hxk; exact h x (by rw [hk]; intro h; cases h)
    · dsimp only at hx; rw [set_other _ _ hxk] at hx; exact h x hx
  | report => exact h x hx
  | @finish k up₀ hk _ =>
    by_cases hxk : x = k
    · subst hxk; exact h x (by rw [hk]; intro h; cases h)
    · dsimp only at hx; rw [set_other _ _ hxk] at hx; exact h x hx

theorem measure_lt {u : List Key} (hu : ∀ k ∈ u, ∀ d ∈ g k, d ∈ u) {s t : S} {o : Op}
    (hI : Inv g s) (ho : ∀ k, o = .root k → k ∈ u) (h : ∀ k, s.st k ≠ .free → k ∈ u)
    (e : Step g s o t) : measure g t u < measure g s u := by
  cases e with
  | @root k hk hr =>
    apply cost_lt (ho k rfl)
    unfold cost; dsimp only; rw [set_same, hk]; dsimp only; omega
  | @push k q up₀ rem₀ hk hr hd hq =>
    apply cost_lt (hu k (h k (by rw [hk]; intro h; cases h)) _ (hI.sub k _ _ hk _ hd))
    unfold cost; dsimp only; rw [set_same, hq]; dsimp only; omega
  | @got k q up₀ rem₀ hk hr hd hq =>
    apply cost_lt (h k (by rw [hk]; intro h; cases h))
    unfold cost; dsimp only; rw [set_same, hk]; dsimp only
    have := List.length_pos_of_mem hd
    rw [List.length_erase_of_mem hd]
    omega
  | @report k q up₀ rem₀ up₁ rem₁ hk hr hd hq hin =>
    unfold measure
    rw [if_pos hr]
    have : (u.map (cost g { s with report := some q })) = u.map (cost g s) := rfl
    rw [this]
    simp
  | @finish k up₀ hk hr =>
    apply cost_lt (h k (by rw [hk]; intro h; cases h))
    unfold cost; dsimp only; rw [set_same, hk]; dsimp only; omega

/-- Reachable by matching targets among `u` only. -/
inductive ReachIn (g : Key → List Key) (u : List Key) : Nat → S → Prop
  | init : ReachIn g u 0 init
  | step {n : Nat} {s t : S} {o : Op} : ReachIn g u n s → (∀ k, o = .root k → k ∈ u) →
      step g s o = some t → ReachIn g u (n + 1) t

/-- If the targets to match need finitely many targets, `u`, then matching them stops, in
whatever order it is done: there is a bound on the number of steps. -/
theorem matching_stops {u : List Key} (hu : ∀ k ∈ u, ∀ d ∈ g k, d ∈ u) {n : Nat} {s : S}
    (h : ReachIn g u n s) : n ≤ (u.map fun k => (g k).length + 2).sum + 1 := by
  have key : ∀ {n : Nat} {s : S}, ReachIn g u n s → Inv g s ∧ (∀ k, s.st k ≠ .free → k ∈ u) ∧
      n + measure g s u ≤ measure g init u := by
    intro n s h
    induction h with
    | init => exact ⟨inv_init, fun k hk => absurd rfl hk, by omega⟩
    | step h ho e ih =>
      obtain ⟨h1, h2, h3⟩ := ih
      have e := step_iff.1 e
      refine ⟨inv_step h1 e, locked_mem hu h1 ho h2 e, ?_⟩
      have := measure_lt hu h1 ho h2 e
      omega
  have h3 := (key h).2.2
  have h4 : measure g init u = (u.map fun k => (g k).length + 2).sum + 1 := rfl
  omega

/-! #### Serial execution -/

/-- In serial execution the locked targets are one chain. -/
theorem serial_chain {n : Nat} {s : S} (h : SReach g n s) :
    (∀ x up rem, s.st x ≠ .locked up rem) ∨ ∃ k, Top s k := by
  induction h with
  | init => exact Or.inl fun x up rem h => by cases h
  | @step n s t o h hs e ih =>
    have hI := inv_reach (sreach_reach h)
    have e := step_iff.1 e
    cases e with
    | @root k hk hr =>
      right
      refine ⟨k, [], g k, set_same _ _ _, ?_⟩
      intro x up rem hx
      by_cases hxk : x = k
      · exact List.mem_singleton.2 hxk
      · dsimp only at hx; rw [set_other _ _ hxk] at hx; exact absurd hx (hs x up rem)
    | @push k q up₀ rem₀ hk hr hd hq =>
      obtain ⟨up, rem, h1, h2⟩ := hs
      rw [hk] at h1
      cases h1
      right
      refine ⟨q, k :: up₀, g q, set_same _ _ _, ?_⟩
      intro x up rem hx
      by_cases hxk : x = q
      · exact hxk ▸ List.mem_cons_self
      · dsimp only at hx; rw [set_other _ _ hxk] at hx
        exact List.mem_cons_of_mem _ (h2 x up rem hx)
    | @got k q up₀ rem₀ hk hr hd hq =>
      obtain ⟨up, rem, h1, h2⟩ := hs
      rw [hk] at h1
      cases h1
      right
      refine ⟨k, up₀, rem₀.erase q, set_same _ _ _, ?_⟩
      intro x up rem hx
      by_cases hxk : x = k
      · exact hxk ▸ List.mem_cons_self
      · dsimp only at hx; rw [set_other _ _ hxk] at hx
        exact h2 x up rem hx
    | @report k q up₀ rem₀ up₁ rem₁ hk hr hd hq hin => exact Or.inr ⟨k, hs⟩
    | @finish k up₀ hk hr =>
      obtain ⟨up, rem, h1, h2⟩ := hs
      rw [hk] at h1
      cases h1
      have hx : ∀ x up rem, set s.st k .applied x = .locked up rem → x ∈ up₀ := by
        intro x up rem hx
        by_cases hxk : x = k
        · rw [hxk, set_same] at hx; cases hx
        · rw [set_other _ _ hxk] at hx
          rcases List.mem_cons.1 (h2 x up rem hx) with h | h
          · exact absurd h hxk
          · exact h
      cases up₀ with
      | nil => exact Or.inl fun x up rem h => by cases hx x up rem h
      | cons p up =>
        right
        obtain ⟨_, ⟨rem, h3, h4⟩, _⟩ := hI.chain k _ _ hk
        refine ⟨p, up, rem, ?_, hx⟩
        dsimp only
        rw [set_other _ _ (by intro h; subst h; rw [hk] at h3; cases h3; done), h3]

/-- In serial execution something can always be done until what was started is matched or a
cycle is reported: there is no deadlock. -/
theorem serial_progress {n : Nat} {s : S} (h : SReach g n s) (hr : s.report = none) {k : Key}
    {up rem : List Key} (hk : s.st k = .locked up rem) :
    ∃ o t, Serial s o ∧ (∀ x, o ≠ .root x) ∧ step g s o = some t := by
  rcases serial_chain h with h1 | ⟨x, up', rem', hx, hall⟩
  · exact absurd hk (h1 k up rem)
  · have ht : Top s x := ⟨up', rem', hx, hall⟩
    cases rem' with
    | nil =>
      exact ⟨.finish x, _, ht, fun y h => (by cases h), step_iff.2 (.finish hx hr)⟩
    | cons d rem' =>
      have hdm : d ∈ d :: rem' := List.mem_cons_self
      refine ⟨.ask x d, ?_⟩
      cases hd : s.st d with
      | applied => exact ⟨_, ht, fun y h => (by cases h), step_iff.2 (.got hx hr hdm hd)⟩
      | free => exact ⟨_, ht, fun y h => (by cases h), step_iff.2 (.push hx hr hdm hd)⟩
      | locked u r =>
        exact ⟨_, ht, fun y h => (by cases h), step_iff.2 (.report hx hr hdm hd (hall d u r hd))⟩

/-- In serial execution, if a target that leads to a cycle is matched, then by the time nothing
can be done the cycle is reported. -/
theorem serial_reports {n : Nat} {s : S} (h : SReach g n s) {k d : Key}
    (hk : s.st k ≠ .free) (hp : Path g k d) (hc : Path g d d)
    (hend : ∀ o, Serial s o → (∀ x, o ≠ .root x) → step g s o = none) :
    ∃ c, s.report = some c ∧ Path g c c := by
  cases hr : s.report with
  | some c => exact ⟨c, rfl, reported_is_cycle (sreach_reach h) hr⟩
  | none =>
    exfalso
    cases hs : s.st k with
    | free => exact hk hs
    | applied => exact cyclic_never_matched (sreach_reach h) hp hc hs
    | locked up rem =>
      obtain ⟨o, t, h1, h2, h3⟩ := serial_progress h hr hs
      rw [hend o h1 h2] at h3
      cases h3

/-- With several threads two tasks may wait for each other's targets, so a cycle may go
unreported (the scheduler then suspects a deadlock and terminates). -/
theorem parallel_deadlock : ∃ (g : Key → List Key) (n : Nat) (s : S), Reach g n s ∧
    s.report = none ∧ (∃ k up rem, s.st k = .locked up rem) ∧ Stuck g s := by
  let a : Key := ⟨0, 1⟩
  let b : Key := ⟨0, 2⟩
  let g : Key → List Key := fun k => if k = a then [b] else if k = b then [a] else []
  have h0 : Reach g 0 init := .init
  have h1 := Reach.step h0 (step_iff.2 (.root (k := a) rfl rfl))
  have h2 := Reach.step h1 (step_iff.2 (.root (k := b) rfl rfl))
  refine ⟨g, 2, _, h2, rfl, ⟨a, [], [b], rfl⟩, ?_⟩
  have hst : ∀ k, k ≠ a → k ≠ b →
      set (set init.st a (.locked [] (g a))) b (.locked [] (g b)) k = .free := by
    intro k ha hb
    rw [set_other _ _ hb, set_other _ _ ha]
    rfl
  constructor
  · intro k d
    unfold step
    dsimp only
    by_cases ha : k = a
    · subst ha
      by_cases hd : d = b
      · subst hd; rfl
      · have : set (set init.st a (.locked [] (g a))) b (.locked [] (g b)) a =
          .locked [] [b] := rfl
        rw [this]
        dsimp only
        rw [if_neg]
        rintro ⟨_, h⟩
        exact hd (List.mem_singleton.1 h)
    · by_cases hb : k = b
      · subst hb
        by_cases hd : d = a
        · subst hd; rfl
        · have : set (set init.st a (.locked [] (g a))) b (.locked [] (g b)) b =
            .locked [] [a] := rfl
          rw [this]
          dsimp only
          rw [if_neg]
          rintro ⟨_, h⟩
          exact hd (List.mem_singleton.1 h)
      · have := hst k ha hb
        rw [this]
  · intro k
    unfold step
    dsimp only
    by_cases ha : k = a
    · subst ha; rfl
    · by_cases hb : k = b
      · subst hb; rfl
      · rw [hst k ha hb]

/-! ### Examples -/

/-- 1 needs 2 and 3, 2 needs 3: no cycle. -/
def diamond (k : Key) : List Key :=
  if k = ⟨0, 1⟩ then [⟨0, 2⟩, ⟨0, 3⟩] else if k = ⟨0, 2⟩ then [⟨0, 3⟩] else []

/-- 1 needs 2, 2 needs 1. -/
def loop (k : Key) : List Key :=
  if k = ⟨0, 1⟩ then [⟨0, 2⟩] else if k = ⟨0, 2⟩ then [⟨0, 1⟩] else []

/-- Run a list of steps. -/
def run (g : Key → List Key) (s : S) : List Op → Option S
  | [] => some s
  | o :: l => (step g s o).bind (run g · l)

/-- The diamond is matched, with two tasks at a time. -/
example : (run diamond init [.root ⟨0, 1⟩, .ask ⟨0, 1⟩ ⟨0, 2⟩, .ask ⟨0, 1⟩ ⟨0, 3⟩, .finish ⟨0, 3⟩,
    .ask ⟨0, 2⟩ ⟨0, 3⟩, .finish ⟨0, 2⟩, .ask ⟨0, 1⟩ ⟨0, 2⟩, .ask ⟨0, 1⟩ ⟨0, 3⟩,
    .finish ⟨0, 1⟩]).map (fun s => (s.st ⟨0, 1⟩, s.report)) = some (.applied, none) := rfl

example : Acyclic diamond := by
  have h : ∀ k d, d ∈ diamond k → d.target > k.target := by
    intro k d hd
    unfold diamond at hd
    split at hd
    · rename_i h
      subst h
      simp only [List.mem_cons, List.not_mem_nil, or_false] at hd
      rcases hd with rfl | rfl <;> decide
    · split at hd
      · rename_i h
        subst h
        simp only [List.mem_cons, List.not_mem_nil, or_false] at hd
        subst hd; decide
      · cases hd
  have h2 : ∀ k d, Path diamond k d → d.target > k.target := by
    intro k d hp
    induction hp with
    | one hd => exact h _ _ hd
    | cons hd _ ih => have := h _ _ hd; omega
  intro k hp
  have := h2 k k hp
  omega

/-- The loop is reported. -/
example : (run loop init [.root ⟨0, 1⟩, .ask ⟨0, 1⟩ ⟨0, 2⟩, .ask ⟨0, 2⟩ ⟨0, 1⟩]).bind S.report =
    some ⟨0, 1⟩ := rfl

/-- The same target for another action is not a cycle. -/
example : (run (fun k => if k = ⟨1, 1⟩ then [⟨0, 1⟩] else []) init
    [.root ⟨1, 1⟩, .ask ⟨1, 1⟩ ⟨0, 1⟩, .finish ⟨0, 1⟩, .ask ⟨1, 1⟩ ⟨0, 1⟩, .finish ⟨1, 1⟩]).map
    (fun s => (s.st ⟨1, 1⟩, s.report)) = some (.applied, none) := rfl

end Verif.Cycle
