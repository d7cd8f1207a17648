import Verif.Recipe.Streams

/-! # Changes that an ad hoc recipe depends on: lemmas about histories -/

namespace Verif.Recipe

variable {σ ξ ρ : Type}

theorem map_pair {α β γ : Type} {f : α → β} {g : α → γ} {as bs : List α}
    (hf : as.map f = bs.map f) (hg : as.map g = bs.map g) :
    as.map (fun a => (f a, g a)) = bs.map (fun a => (f a, g a)) := by
  induction as generalizing bs with
  | nil => cases bs with | nil => rfl | cons b bs => cases hf
  | cons a as ih =>
    cases bs with
    | nil => cases hf
    | cons b bs =>
      simp only [List.map_cons] at hf hg ⊢
      injection hf with f1 f2
      injection hg with g1 g2
      rw [f1, g1, ih f2 g2]

theorem exe_inj {as bs : List Prq} (hs : as.map (·.sum.isSome) = bs.map (·.sum.isSome))
    (ha : ∀ q ∈ as, ∀ c, q.sum = some c → 0 ∉ c) (hb : ∀ q ∈ bs, ∀ c, q.sum = some c → 0 ∉ c)
    (h : as.flatMap exeSum = bs.flatMap exeSum) : as.map (·.sum) = bs.map (·.sum) := by
  induction as generalizing bs with
  | nil => cases bs with | nil => rfl | cons b bs => cases hs
  | cons a as ih =>
    cases bs with
    | nil => cases hs
    | cons b bs =>
      simp only [List.map_cons, List.flatMap_cons] at hs h ⊢
      injection hs with h1 h2
      have ha' : ∀ q ∈ as, ∀ c, q.sum = some c → 0 ∉ c := fun q hq => ha q (by simp [hq])
      have hb' : ∀ q ∈ bs, ∀ c, q.sum = some c → 0 ∉ c := fun q hq => hb q (by simp [hq])
      cases ea : a.sum with
      | none =>
        cases eb : b.sum with
        | none =>
          simp only [exeSum, ea, eb, List.nil_append] at h
          rw [ih h2 ha' hb' h]
        | some d => rw [ea, eb] at h1; cases h1
      | some c =>
        cases eb : b.sum with
        | none => rw [ea, eb] at h1; cases h1
        | some d =>
          simp only [exeSum, ea, eb] at h
          obtain ⟨h3, h4⟩ := str_inj (ha a (by simp) c ea) (hb b (by simp) d eb) h
          rw [h3, ih h2 ha' hb' h4]

theorem envs_inj {g g' : Str → Option Str} (ns : List Str) (hn : ∀ n ∈ ns, 0 ∉ n)
    (hs : ∀ n, (g n).isSome = (g' n).isSome) (hg : ∀ n v, g n = some v → 0 ∉ v)
    (hg' : ∀ n v, g' n = some v → 0 ∉ v)
    (h : ns.flatMap (envSum g) = ns.flatMap (envSum g')) : ∀ n ∈ ns, g n = g' n := by
  induction ns with
  | nil => intro n h; cases h
  | cons m ms ih =>
    simp only [List.flatMap_cons, envSum, List.append_assoc] at h
    obtain ⟨_, h⟩ := str_inj (hn m (by simp)) (hn m (by simp)) h
    have hm : ∀ n ∈ ms, 0 ∉ n := fun n h => hn n (by simp [h])
    have h1 := hs m
    intro n hmem
    cases ea : g m with
    | none =>
      cases eb : g' m with
      | some d => rw [ea, eb] at h1; cases h1
      | none =>
        simp only [ea, eb, List.nil_append] at h
        cases hmem with
        | head => rw [ea, eb]
        | tail _ hmem => exact ih hm h n hmem
    | some c =>
      cases eb : g' m with
      | none => rw [ea, eb] at h1; cases h1
      | some d =>
        simp only [ea, eb] at h
        obtain ⟨h3, h4⟩ := str_inj (hg m c ea) (hg' m d eb) h
        cases hmem with
        | head => rw [ea, eb, h3]
        | tail _ hmem => exact ih hm h4 n hmem

/-- What the checksums say. -/
structure Agree (p : Script) (i j : Input ξ) : Prop where
  env   : ∀ n ∈ p.vars, i.env n = j.env n
  start : i.start = j.start
  progs : i.progs = j.progs

theorem filter_all {α : Type} (f : α → Bool) (as : List α) (h : ∀ a ∈ as, f a = true) :
    as.filter f = as := List.filter_eq_self.2 h

/-- With the same checksums everything that is tracked is the same. -/
theorem agree_of_key (p : Script) {Is : Input ξ → Prop} (hst : Steady Is) {i j : Input ξ}
    (hi : Is i) (hj : Is j) (hc : p.clear = false) (hn : ∀ n ∈ p.vars, 0 ∉ n)
    (h : keyLines p i = keyLines p j) : Agree p i j := by
  obtain ⟨_, ⟨tv, htv⟩, ⟨τ, hτ⟩, hpl, ⟨nf, hnf⟩, ⟨af, haf⟩, ⟨sf, gf, hsf⟩, ⟨ef, hef⟩⟩ := hst
  have hui : hashed i = i.prqs :=
    filter_all _ _ fun q hq => by simp [(haf i hi q hq).1]
  have huj : hashed j = j.prqs :=
    filter_all _ _ fun q hq => by simp [(haf j hj q hq).1]
  simp only [keyLines, hc, Bool.false_eq_true, ↓reduceIte, List.cons_append, List.nil_append,
    List.cons.injEq, Line.sum.injEq, hui, huj, and_true, true_and] at h
  obtain ⟨_, hv, ht, hq, he, hg⟩ := h
  have path : ∀ k, Is k → ∀ q ∈ k.prqs, ∃ p, q.tgt.path = some p ∧ 0 ∉ p ∧ q.tgt.names = nf p :=
    fun k hk q hq => hnf k hk q.tgt (by simp; exact Or.inr ⟨q, hq, rfl⟩)
  have tpath : ∀ k, Is k → ∀ t ∈ k.tgts, ∃ p, t.path = some p ∧ 0 ∉ p ∧ t.names = nf p :=
    fun k hk t ht => hnf k hk t (by simp [ht])
  -- The same paths.
  have nz : ∀ ts : List Tgt, (∀ t ∈ ts, ∃ p, t.path = some p ∧ 0 ∉ p ∧ t.names = nf p) →
      ∀ a ∈ ts.map (fun t => t.path.getD []), 0 ∉ a := by
    intro ts hts a ha
    obtain ⟨t, ht, rfl⟩ := List.mem_map.1 ha
    obtain ⟨p, hp, h0, _⟩ := hts t ht
    rw [hp]; exact h0
  have hts : i.tgts.map (fun t => t.path.getD []) = j.tgts.map (fun t => t.path.getD []) := by
    rw [targets_paths _ fun t ht => (tpath i hi t ht).imp fun _ h => h.1,
      targets_paths _ fun t ht => (tpath j hj t ht).imp fun _ h => h.1] at ht
    exact strs_inj (nz _ (tpath i hi)) (nz _ (tpath j hj)) ht
  have pq : ∀ k, Is k → ∀ t ∈ k.prqs.map (·.tgt),
      ∃ p, t.path = some p ∧ 0 ∉ p ∧ t.names = nf p := by
    intro k hk t ht
    obtain ⟨q, hq, rfl⟩ := List.mem_map.1 ht
    exact path k hk q hq
  have hps : i.prqs.map (fun q => q.tgt.path.getD []) =
      j.prqs.map (fun q => q.tgt.path.getD []) := by
    have e : ∀ k : Input ξ, k.prqs.flatMap (fun q => targetSum q.tgt) =
        (k.prqs.map (·.tgt)).flatMap targetSum := fun k => by rw [List.flatMap_map]
    rw [e i, e j, targets_paths _ fun t ht => (pq i hi t ht).imp fun _ h => h.1,
      targets_paths _ fun t ht => (pq j hj t ht).imp fun _ h => h.1] at hq
    have := strs_inj (nz _ (pq i hi)) (nz _ (pq j hj)) hq
    simpa [List.map_map, Function.comp_def] using this
  have hnames : i.tgts.map (·.names) = j.tgts.map (·.names) := by
    refine map_eq_of hts ?_
    intro a ha b hb hab
    obtain ⟨p, hp, _, hpn⟩ := tpath i hi a ha
    obtain ⟨q, hq, _, hqn⟩ := tpath j hj b hb
    rw [hp, hq] at hab
    simp only [Option.getD_some] at hab
    rw [hpn, hqn, hab]
  have both : ∀ {γ : Type} (g : Prq → γ),
      (∀ a ∈ i.prqs, ∀ b ∈ j.prqs, ∀ p, a.tgt.path = some p → b.tgt.path = some p → g a = g b) →
      i.prqs.map g = j.prqs.map g := by
    intro γ g hg
    refine map_eq_of hps ?_
    intro a ha b hb hab
    obtain ⟨p, hp, _, _⟩ := path i hi a ha
    obtain ⟨q, hq, _, _⟩ := path j hj b hb
    rw [hp, hq] at hab
    simp only [Option.getD_some] at hab
    subst hab
    exact hg a ha b hb p hp hq
  have hadh : i.prqs.map (fun q => (q.adhoc, q.tgt.names)) =
      j.prqs.map (fun q => (q.adhoc, q.tgt.names)) := by
    refine both _ ?_
    intro a ha b hb p hpa hpb
    obtain ⟨_, h1, _, h2⟩ := path i hi a ha
    obtain ⟨_, h3, _, h4⟩ := path j hj b hb
    rw [hpa] at h1; rw [hpb] at h3
    cases h1; cases h3
    rw [(haf i hi a ha).2 p hpa, (haf j hj b hb).2 p hpb, h2, h4]
  have hsums : i.prqs.map (·.sum) = j.prqs.map (·.sum) := by
    have zs : ∀ k, Is k → ∀ q ∈ k.prqs, ∀ c, q.sum = some c → 0 ∉ c := by
      intro k hk q hq
      obtain ⟨p, hp, _⟩ := path k hk q hq
      exact (hsf k hk q hq p hp).2.2.1
    refine exe_inj ?_ (zs i hi) (zs j hj) he
    refine both _ ?_
    intro a ha b hb p hpa hpb
    rw [(hsf i hi a ha p hpa).1, (hsf j hj b hb p hpb).1]
  have henvs : i.prqs.map (·.envs) = j.prqs.map (·.envs) := by
    refine both _ ?_
    intro a ha b hb p hpa hpb
    rw [(hsf i hi a ha p hpa).2.1, (hsf j hj b hb p hpb).2.1]
  have hfl : i.prqs.flatMap (·.envs) = j.prqs.flatMap (·.envs) := by
    rw [List.flatMap_def, List.flatMap_def, henvs]
  have hge : ∀ n ∈ i.prqs.flatMap (·.envs), i.getenv n = j.getenv n := by
    refine envs_inj _ ?_ ?_ ?_ ?_ ?_
    · intro n hn
      obtain ⟨q, hq, hn⟩ := List.mem_flatMap.1 hn
      obtain ⟨p, hp, _⟩ := path i hi q hq
      exact (hsf i hi q hq p hp).2.2.2 n hn
    · intro n; rw [(hef i hi n).1, (hef j hj n).1]
    · intro n v hv; exact (hef i hi n).2 v hv
    · intro n v hv; exact (hef j hj n).2 v hv
    · have e : ∀ k : Input ξ, (k.prqs.flatMap fun q => q.envs.flatMap (envSum k.getenv)) =
          (k.prqs.flatMap (·.envs)).flatMap (envSum k.getenv) := fun k => by
        rw [List.flatMap_assoc]
      rw [e i, e j, ← hfl] at hg
      exact hg
  refine ⟨?_, ?_, ?_⟩
  · exact varsSum_inj p.vars hn (fun n w ns h1 h2 => hpl i hi n w ns h1 h2)
      (fun n w ns h1 h2 => hpl j hj n w ns h1 h2)
      (fun n a b h1 h2 => by rw [hτ i hi n a h1, hτ j hj n b h2]) hv
  · have e1 : i.tgts.flatMap (·.names) = j.tgts.flatMap (·.names) := by
      rw [List.flatMap_def, List.flatMap_def, hnames]
    have e2 : ∀ k : Input ξ, (k.prqs.filter (!·.adhoc)).flatMap (·.tgt.names) =
        ((k.prqs.map (fun q => (q.adhoc, q.tgt.names))).filter (!·.1)).flatMap (·.2) := by
      intro k
      rw [List.filter_map, List.flatMap_map]
      rfl
    funext n
    unfold Input.start
    rw [e1, e2 i, e2 j, hadh, htv i hi, htv j hj]
  · have e : ∀ k : Input ξ, k.progs = (k.prqs.map (fun q => (q.sum, q.envs))).map
        (fun r => ⟨r.1, r.2.map fun n => (n, k.getenv n)⟩) := by
      intro k; simp [Input.progs, List.map_map, Function.comp_def]
    rw [e i, e j, ← map_pair hsums henvs]
    refine List.map_congr_left ?_
    intro r hr
    obtain ⟨q, hq, rfl⟩ := List.mem_map.1 hr
    have : (q.envs.map fun n => (n, i.getenv n)) = q.envs.map fun n => (n, j.getenv n) := by
      refine List.map_congr_left ?_
      intro n hn
      rw [hge n (List.mem_flatMap.2 ⟨q, hq, hn⟩)]
    simp only [this]

/-! ## The preamble -/

theorem preamble_lines (S : Sem σ ξ ρ) (fuel : Nat) (p : Script) (i : Input ξ) (ts : List Top) :
    ∀ l s ls l' s' ls', preamble S fuel p i ts l s ls = .ok l' s' ls' →
      ∃ rs, ls' = ls ++ rs ∧ rs.length = ts.countP isDep := by
  induction ts with
  | nil => intro l s ls l' s' ls' h; cases h; exact ⟨[], by simp⟩
  | cons t ts ih =>
    intro l s ls l' s' ls' h
    cases t with
    | line a =>
      rw [preamble] at h
      split at h
      · obtain ⟨rs, h1, h2⟩ := ih _ _ _ _ _ _ h
        exact ⟨rs, h1, by simp [isDep, h2]⟩
      · cases h
    | clear =>
      rw [preamble] at h
      obtain ⟨rs, h1, h2⟩ := ih _ _ _ _ _ _ h
      exact ⟨rs, h1, by simp [isDep, h2]⟩
    | depdb k e =>
      rw [preamble] at h
      split at h
      · rename_i x hx
        obtain ⟨rs, h1, h2⟩ := ih _ _ _ _ _ _ h
        exact ⟨x :: rs, by rw [h1]; simp, by
          rw [List.countP_cons_of_pos (by rfl), List.length_cons, h2]⟩
      · cases h

/-- Where a script is executed without checks. -/
def plainCtx (fuel : Nat) (i : Input ξ) : Ctx ξ :=
  ⟨i.ext, i.progs, i.env, plainLook i.env, true, fuel⟩

theorem exec_plain (S : Sem σ ξ ρ) (fuel : Nat) (p : Script) (i : Input ξ) (b : Bool) (a : Scr)
    (l : Loc) (s : σ) (l' : Loc) (s' : σ) (h : exec S (ctx fuel p i b) a l s = .ok l' s') :
    exec S (plainCtx fuel i) a l s = .ok l' s' := by
  have h1 := exec_all S _ a _ _ _ _ h
  exact exec_mono S _ (look := plainLook i.env) (fun l n v h => guarded_plain p i.env l n v h)
    a _ _ _ _ h1

theorem execs_plain (S : Sem σ ξ ρ) (fuel : Nat) (p : Script) (i : Input ξ) (as : List Scr)
    (l : Loc) (s : σ) (l' : Loc) (s' : σ) (h : execs S (ctx fuel p i true) as l s = .ok l' s') :
    execs S (plainCtx fuel i) as l s = .ok l' s' :=
  execs_mono S _ (look := plainLook i.env) (fun l n v h => guarded_plain p i.env l n v h)
    as _ _ _ _ h

theorem preamble_plain (S : Sem σ ξ ρ) (fuel : Nat) (p : Script) (i : Input ξ) (ts : List Top) :
    ∀ l s ls l' s' ls', preamble S fuel p i ts l s ls = .ok l' s' ls' →
      execs S (plainCtx fuel i) (ts.filterMap Top.line?) l s = .ok l' s' := by
  induction ts with
  | nil => intro l s ls l' s' ls' h; cases h; rfl
  | cons t ts ih =>
    intro l s ls l' s' ls' h
    cases t with
    | line a =>
      rw [preamble] at h
      split at h
      · rename_i hr
        have := exec_plain S fuel p i false a _ _ _ _ hr
        show execs S (plainCtx fuel i) (a :: ts.filterMap Top.line?) l s = _
        rw [execs, this]
        exact ih _ _ _ _ _ _ h
      · cases h
    | clear => rw [preamble] at h; exact ih _ _ _ _ _ _ h
    | depdb k e =>
      rw [preamble] at h
      split at h
      · exact ih _ _ _ _ _ _ h
      · cases h

/-! ## Histories -/

/-- The expanded variables. -/
def refsOf (as : List Scr) (n : Str) : Prop := ∃ a ∈ as, ∃ e ∈ a.exprs, n ∈ e.refs

/-- The scripts for which what is tracked is enough: no function calls with computed
names, and a variable that is appended to is also expanded. -/
structure Sound (ts : List Top) : Prop where
  nul   : ∀ t ∈ ts, ∀ e ∈ t.exprs, ∀ n ∈ e.refs, 0 ∉ n
  named : ∀ a, Top.line a ∈ ts → ∀ e ∈ a.exprs, e.named = true
  apps  : ∀ a, Top.line a ∈ ts → ∀ n ∈ a.appended, n ∈ a.exprs.flatMap Expr.refs

/-- If what has been recorded is the same then what the preamble has computed for the
rest of the script is the same. And after `depdb clear`, everything else. -/
def Recorded (S : Sem σ ξ ρ) (fuel : Nat) (p : Script) (Is : Input ξ → Prop) : Prop :=
  ∀ i j s l s1 l' s1' ls, Is i → Is j →
    preamble S fuel p i p.preamble i.start s (keyLines p i) = .ok l s1 ls →
    preamble S fuel p j p.preamble j.start s (keyLines p j) = .ok l' s1' ls →
    s1 = s1' ∧ (∀ n, refsOf p.body n → l n = l' n) ∧
      (p.clear = true → i.progs = j.progs ∧
        ∀ n, refsOf p.body n → l n = none → i.env n = j.env n)

/-- The scripts of these inputs. -/
structure Good (S : Sem σ ξ ρ) (fuel : Nat) (parse : Nat → Nat → Option (List Top))
    (Is : Input ξ → Prop) : Prop where
  steady : Steady Is
  sound  : ∀ i, Is i → ∀ ts, parse i.text i.syntx = some ts → Sound ts
  custom : ∀ i, Is i → ∀ ts p, parse i.text i.syntx = some ts → preParse S ts = some p →
    (p.preamble ≠ [] ∨ p.clear = true) →
      Recorded S fuel p (fun j => Is j ∧ parse j.text j.syntx = some ts)

/-- The body depends on these only. -/
theorem body_closed (S : Sem σ ξ ρ) {ts : List Top} {p : Script} (hs : Sound ts)
    (hp : preParse S ts = some p) :
    ∀ a ∈ p.body, a.Closed S (p.body.flatMap fun a => a.exprs.flatMap Expr.refs) := by
  obtain ⟨hi, h1, h2⟩ := preParse_inv S ts p hp
  intro a ha
  refine ⟨?_, ?_⟩
  · intro e he
    refine ⟨?_, hi.comp h2 a ha e he, hi.imp h1 a ha e he, hs.named a (hi.bod a ha) e he⟩
    intro n hn
    exact List.mem_flatMap.2 ⟨a, ha, List.mem_flatMap.2 ⟨e, he, hn⟩⟩
  · intro n hn
    exact List.mem_flatMap.2 ⟨a, ha, hs.apps a (hi.bod a ha) n hn⟩

theorem mem_refs {as : List Scr} {n : Str}
    (h : n ∈ as.flatMap fun a => a.exprs.flatMap Expr.refs) : refsOf as n := by
  obtain ⟨a, ha, h⟩ := List.mem_flatMap.1 h
  obtain ⟨e, he, h⟩ := List.mem_flatMap.1 h
  exact ⟨a, ha, e, he, h⟩

theorem start_special (i : Input ξ) (n : Str) (h : special n = true) : (i.start n).isSome := by
  unfold Input.start
  split
  · rfl
  · split
    · rfl
    · split
      · rfl
      · rename_i h1 h2 h3
        simp [special, h1, h2, h3] at h

/-- With the same lines the body does the same. -/
theorem body_same (S : Sem σ ξ ρ) (fuel : Nat) (parse : Nat → Nat → Option (List Top))
    {Is : Input ξ → Prop} (hg : Good S fuel parse Is) {ts : List Top} {p : Script}
    {i j : Input ξ} (hi : Is i) (hj : Is j) (hti : parse i.text i.syntx = some ts)
    (htj : parse j.text j.syntx = some ts) (hp : preParse S ts = some p) {s : σ} {l l' : Loc}
    {s1 s1' : σ} {ls : List Line} (hk : keyLines p i = keyLines p j)
    (h : preamble S fuel p i p.preamble i.start s (keyLines p i) = .ok l s1 ls)
    (h' : preamble S fuel p j p.preamble j.start s (keyLines p j) = .ok l' s1' ls)
    {l2 : Loc} {s2 : σ} (hb : execs S (plainCtx fuel j) p.body l' s1' = .ok l2 s2) :
    ∃ l3, execs S (plainCtx fuel i) p.body l s1 = .ok l3 s2 := by
  have hso := hg.sound i hi ts hti
  obtain ⟨hpi, _, _⟩ := preParse_inv S ts p hp
  have hag : p.clear = false → Agree p i j := fun hc =>
    agree_of_key p hg.steady hi hj hc (fun n hn => by
      obtain ⟨t, ht, e, he, hn⟩ := hpi.from_ n hn
      exact hso.nul t ht e he n hn) hk
  have key : s1 = s1' ∧ i.progs = j.progs ∧
      ∀ n, refsOf p.body n → plainLook i.env l n = plainLook j.env l' n := by
    by_cases hcu : p.preamble ≠ [] ∨ p.clear = true
    · obtain ⟨h1, h2, h3⟩ := hg.custom i hi ts p hti hp hcu i j s l s1 l' s1' ls
        ⟨hi, hti⟩ ⟨hj, htj⟩ h h'
      cases hc : p.clear with
      | true =>
        obtain ⟨h4, h5⟩ := h3 hc
        refine ⟨h1, h4, ?_⟩
        intro n hn
        unfold plainLook
        rw [← h2 n hn]
        cases hl : l n with
        | some v => rfl
        | none => rw [h5 n hn hl]
      | false =>
        have ha := hag hc
        refine ⟨h1, ha.progs, ?_⟩
        intro n hn
        unfold plainLook
        rw [← h2 n hn]
        cases hl : l n with
        | some v => rfl
        | none =>
          obtain ⟨a, hab, e, he, hne⟩ := hn
          cases hsp : special n with
          | false => rw [ha.env n (hpi.vars hc _ (hpi.bod a hab) e he n hne hsp)]
          | true =>
            -- The special ones stay defined.
            exfalso
            have hgrow : ∀ l s l' s' ls ls' (ts : List Top),
                preamble S fuel p i ts l s ls = .ok l' s' ls' → (l n).isSome → (l' n).isSome := by
              intro l s l' s' ls ls' ts
              induction ts generalizing l s ls with
              | nil => intro h hh; cases h; exact hh
              | cons t ts ih =>
                intro h hh
                cases t with
                | line a =>
                  rw [preamble] at h
                  split at h
                  · rename_i l4 s4 hr
                    refine ih _ _ _ h ?_
                    have := exec_plain S fuel p i false a _ _ _ _ hr
                    exact exec_grow S _ a n _ _ _ _ this hh
                  · cases h
                | clear => rw [preamble] at h; exact ih _ _ _ h hh
                | depdb k e =>
                  rw [preamble] at h
                  split at h
                  · exact ih _ _ _ h hh
                  · cases h
            have := hgrow _ _ _ _ _ _ _ h (start_special i n hsp)
            rw [hl] at this; cases this
    · simp only [ne_eq, not_or, Bool.not_eq_true, Classical.not_not] at hcu
      have ha := hag hcu.2
      rw [hcu.1] at h h'
      simp only [preamble, Pre.ok.injEq] at h h'
      obtain ⟨e1, e2, _⟩ := h
      obtain ⟨e3, e4, _⟩ := h'
      subst e1 e2 e3
      refine ⟨e4, ha.progs, ?_⟩
      intro n hn
      unfold plainLook
      rw [ha.start]
      cases hsp : special n with
      | true =>
        have := start_special j n hsp
        cases hl : j.start n with
        | some v => rfl
        | none => rw [hl] at this; cases this
      | false =>
        obtain ⟨a, hab, e, he, hne⟩ := hn
        rw [ha.env n (hpi.vars hcu.2 _ (hpi.bod a hab) e he n hne hsp)]
  obtain ⟨e1, e2, e3⟩ := key
  subst e1
  have hrel : CtxRel (p.body.flatMap fun a => a.exprs.flatMap Expr.refs)
      (fun l l' => ∀ n, refsOf p.body n → plainLook i.env l n = plainLook j.env l' n)
      (plainCtx fuel i) (plainCtx fuel j) := by
    refine ⟨e2, rfl, rfl, ?_, ?_, ?_⟩
    · intro l l' h n hn; exact h n (mem_refs hn)
    · intro l l' h n hn
      exact Option.some.inj (h n (mem_refs hn))
    · intro l l' h n v m hm
      unfold plainLook Loc.put
      split
      · rfl
      · exact h m hm
  have := execs_rel S hrel p.body (body_closed S hso hp) l l' s1 e3
  rw [hb] at this
  cases hr : execs S (plainCtx fuel i) p.body l s1 with
  | ok l3 s3 => rw [hr] at this; exact ⟨l3, by rw [this.2]⟩
  | fail => rw [hr] at this; cases this
  | stuck => rw [hr] at this; cases this

/-- What there is after any history: what the lines are of, and that the content is what
this has made. -/
def Inv (S : Sem σ ξ ρ) (fuel : Nat) (parse : Nat → Nat → Option (List Top))
    (Is : Input ξ → Prop) (w : World σ ξ ρ) : Prop :=
  Is w.inp ∧ ∀ o, w.st.lines = some o →
    ∃ j ts p s0 l s1, Is j ∧ parse j.text j.syntx = some ts ∧ preParse S ts = some p ∧
      preamble S fuel p j p.preamble j.start s0 (keyLines p j) = .ok l s1 o ∧
      ∀ r, w.st.done = some r → (w.st.newer = false → s0 = w.src) ∧
        ∃ l2 s2, execs S (ctx fuel p j true) p.body l s1 = .ok l2 s2 ∧ r = S.out s2

/-- If everything matches then it is of the same script, and all of it matches. -/
theorem match_same (S : Sem σ ξ ρ) (fuel : Nat) (parse : Nat → Nat → Option (List Top))
    {Is : Input ξ → Prop} (hst : Steady Is) {i j : Input ξ} (hi : Is i) (hj : Is j)
    {ts ts' : List Top} {p p' : Script} (hti : parse i.text i.syntx = some ts)
    (htj : parse j.text j.syntx = some ts') (hp : preParse S ts = some p)
    (hp' : preParse S ts' = some p') {l l' : Loc} {s s0 s1 s1' : σ} {ls o : List Line}
    (h : preamble S fuel p i p.preamble i.start s (keyLines p i) = .ok l s1 ls)
    (h' : preamble S fuel p' j p'.preamble j.start s0 (keyLines p' j) = .ok l' s1' o)
    (hm : matches_ (some o) ls = true) :
    ts' = ts ∧ p' = p ∧ o = ls ∧ keyLines p i = keyLines p j := by
  obtain ⟨rs, h1, h2⟩ := preamble_lines S fuel p i _ _ _ _ _ _ _ h
  obtain ⟨rs', h3, h4⟩ := preamble_lines S fuel p' j _ _ _ _ _ _ _ h'
  have hpre : ls <+: o := List.isPrefixOf_iff_prefix.1 hm
  obtain ⟨x, hx⟩ := hpre
  have ht : i.text = j.text := by
    rw [h1, h3] at hx
    simp only [keyLines, List.cons_append, List.nil_append, List.cons.injEq, Line.text.injEq,
      true_and] at hx
    exact hx.1
  obtain ⟨v, hv⟩ := hst.syntx
  have e1 : ts' = ts := by
    rw [← ht, hv j hj, ← hv i hi, hti] at htj
    exact (Option.some.inj htj).symm
  subst e1
  have e2 : p' = p := by rw [hp] at hp'; exact (Option.some.inj hp').symm
  subst e2
  have hkl : (keyLines p' i).length = (keyLines p' j).length := by
    unfold keyLines; split <;> rfl
  have hlen : ls.length = o.length := by
    rw [h1, h3, List.length_append, List.length_append, h2, h4, hkl]
  have hx0 : x = [] := by
    have := congrArg List.length hx
    rw [List.length_append] at this
    exact List.length_eq_zero_iff.1 (by omega)
  subst hx0
  rw [List.append_nil] at hx
  refine ⟨rfl, rfl, hx.symm, ?_⟩
  rw [h1, h3] at hx
  exact (List.append_inj hx hkl).1

theorem update_inv (S : Sem σ ξ ρ) (fuel : Nat) (parse : Nat → Nat → Option (List Top))
    {Is : Input ξ → Prop} (hst : Steady Is) (w : World σ ξ ρ)
    (hi : Inv S fuel parse Is w) {ts : List Top} {p : Script}
    (ht : parse w.inp.text w.inp.syntx = some ts) (hp : preParse S ts = some p) :
    Inv S fuel parse Is { w with st := (update S fuel p w.inp w.src w.st).2 } := by
  obtain ⟨h1, h2⟩ := hi
  refine ⟨h1, ?_⟩
  intro o ho
  simp only [update] at ho ⊢
  cases hpre : preamble S fuel p w.inp p.preamble w.inp.start w.src (keyLines p w.inp) with
  | fail ls =>
    simp only [hpre] at ho ⊢
    split at ho
    · exact h2 o ho
    · cases ho
  | ok l s1 ls =>
    simp only [hpre] at ho ⊢
    split at ho
    · rename_i hc; rw [if_pos hc]; exact h2 o ho
    · rename_i hc
      rw [if_neg hc]
      cases hb : execs S (ctx fuel p w.inp true) p.body l s1 with
      | ok l2 s2 =>
        simp only [hb] at ho ⊢
        have hol : o = ls := by
          split at ho
          · rename_i hm
            obtain ⟨j, ts', p', s0, l', s1', hj, htj, hpj, hprj, _⟩ := h2 o ho
            rw [ho] at hm
            exact (match_same S fuel parse hst h1 hj ht htj hp hpj hpre hprj hm).2.2.1
          · exact (Option.some.inj ho).symm
        subst hol
        exact ⟨w.inp, ts, p, w.src, l, s1, h1, ht, hp, hpre, fun r hr =>
          ⟨fun _ => rfl, l2, s2, hb, (Option.some.inj hr).symm⟩⟩
      | fail =>
        simp only [hb] at ho ⊢
        split at ho
        · obtain ⟨j, ts', p', s0, l', s1', hj, htj, hpj, hprj, _⟩ := h2 o ho
          exact ⟨j, ts', p', s0, l', s1', hj, htj, hpj, hprj, fun r hr => by cases hr⟩
        · cases ho
          exact ⟨w.inp, ts, p, w.src, l, s1, h1, ht, hp, hpre, fun r hr => by cases hr⟩
      | stuck =>
        simp only [hb] at ho ⊢
        split at ho
        · obtain ⟨j, ts', p', s0, l', s1', hj, htj, hpj, hprj, _⟩ := h2 o ho
          exact ⟨j, ts', p', s0, l', s1', hj, htj, hpj, hprj, fun r hr => by cases hr⟩
        · cases ho
          exact ⟨w.inp, ts, p, w.src, l, s1, h1, ht, hp, hpre, fun r hr => by cases hr⟩

/-- The inputs of a history. -/
def Within (Is : Input ξ → Prop) (es : List (Event σ ξ)) : Prop :=
  ∀ i, Event.input i ∈ es → Is i

theorem run_inv (S : Sem σ ξ ρ) (fuel : Nat) (parse : Nat → Nat → Option (List Top))
    {Is : Input ξ → Prop} (hst : Steady Is) (es : List (Event σ ξ)) :
    ∀ w : World σ ξ ρ, Inv S fuel parse Is w → Within Is es →
      Inv S fuel parse Is (run S fuel parse w es) := by
  induction es with
  | nil => intro w h _; exact h
  | cons e es ih =>
    intro w h hw
    rw [run]
    refine ih _ ?_ fun i hi => hw i (by simp [hi])
    cases e with
    | input i => exact ⟨hw i (by simp), h.2⟩
    | source s =>
      refine ⟨h.1, ?_⟩
      intro o ho
      obtain ⟨j, ts, p, s0, l, s1, a, b, c, d, hr⟩ := h.2 o ho
      exact ⟨j, ts, p, s0, l, s1, a, b, c, d, fun r hd => ⟨(fun hn => by cases hn), (hr r hd).2⟩⟩
    | build =>
      simp only [step]
      split
      · rename_i p hp
        obtain ⟨ts, ht, hp⟩ := Option.bind_eq_some_iff.1 hp
        exact update_inv S fuel parse hst w h ht hp
      · exact h

/-- The lines after a build that succeeds. -/
theorem after_build (S : Sem σ ξ ρ) (fuel : Nat) (parse : Nat → Nat → Option (List Top))
    {Is : Input ξ → Prop} (hst : Steady Is) (w : World σ ξ ρ)
    (hi : Inv S fuel parse Is w) (hok : (step S fuel parse w .build).1 ≠ .failed) :
    (step S fuel parse w .build).2.inp = w.inp ∧
    ∃ ts p l s1 ls, parse w.inp.text w.inp.syntx = some ts ∧ preParse S ts = some p ∧
      preamble S fuel p w.inp p.preamble w.inp.start w.src (keyLines p w.inp) = .ok l s1 ls ∧
      (step S fuel parse w .build).2.st.lines = some ls := by
  simp only [step] at hok ⊢
  cases hpp : (parse w.inp.text w.inp.syntx).bind (preParse S) with
  | none => simp [hpp] at hok
  | some p =>
    obtain ⟨ts, ht, hp⟩ := Option.bind_eq_some_iff.1 hpp
    simp only [hpp] at hok ⊢
    refine ⟨trivial, ts, p, ?_⟩
    simp only [update] at hok ⊢
    cases hpre : preamble S fuel p w.inp p.preamble w.inp.start w.src (keyLines p w.inp) with
    | fail ls => simp [hpre] at hok
    | ok l s1 ls =>
      refine ⟨l, s1, ls, ht, hp, rfl, ?_⟩
      have hsame : matches_ w.st.lines ls = true → w.st.lines = some ls := by
        intro hm
        cases hl : w.st.lines with
        | none => rw [hl] at hm; cases hm
        | some o =>
          obtain ⟨j, ts', p', s0, l', s1', hj, htj, hpj, hprj, _⟩ := hi.2 o hl
          rw [hl] at hm
          rw [(match_same S fuel parse hst hi.1 hj ht htj hp hpj hpre hprj hm).2.2.1]
      simp only [hpre] at hok ⊢
      by_cases hc : (matches_ w.st.lines ls && w.st.done.isSome && !w.st.newer) = true
      · rw [if_pos hc]
        simp only [Bool.and_eq_true] at hc
        exact hsame hc.1.1
      · rw [if_neg hc]
        have hl : (if matches_ w.st.lines ls = true then w.st.lines else some ls) = some ls := by
          split
          · rename_i hm; exact hsame hm
          · rfl
        rw [hl]
        cases execs S (ctx fuel p w.inp true) p.body l s1 <;> rfl

/-- A build that succeeds leaves what the recipe makes of it now. -/
theorem build_ok (S : Sem σ ξ ρ) (fuel : Nat) (parse : Nat → Nat → Option (List Top))
    {Is : Input ξ → Prop} (hg : Good S fuel parse Is) (w : World σ ξ ρ)
    (hi : Inv S fuel parse Is w) (hok : (step S fuel parse w .build).1 ≠ .failed) :
    ∃ ts l s, parse w.inp.text w.inp.syntx = some ts ∧
      meaning S fuel ts w.inp w.src = .ok l s ∧
      (step S fuel parse w .build).2.st.done = some (S.out s) := by
  obtain ⟨h1, h2⟩ := hi
  simp only [step] at hok ⊢
  cases hpp : (parse w.inp.text w.inp.syntx).bind (preParse S) with
  | none => simp [hpp] at hok
  | some p =>
    simp only [hpp] at hok ⊢
    obtain ⟨ts, ht, hp⟩ := Option.bind_eq_some_iff.1 hpp
    obtain ⟨hpi, _, _⟩ := preParse_inv S ts p hp
    have hmean : ∀ l s1 ls l3 s3,
        preamble S fuel p w.inp p.preamble w.inp.start w.src (keyLines p w.inp) = .ok l s1 ls →
        execs S (plainCtx fuel w.inp) p.body l s1 = .ok l3 s3 →
        meaning S fuel ts w.inp w.src = .ok l3 s3 := by
      intro l s1 ls l3 s3 ha hb
      show execs S (plainCtx fuel w.inp) _ _ _ = _
      rw [hpi.lines, execs_append, preamble_plain S fuel p w.inp _ _ _ _ _ _ _ ha]
      exact hb
    simp only [update] at hok ⊢
    cases hpre : preamble S fuel p w.inp p.preamble w.inp.start w.src (keyLines p w.inp) with
    | fail ls => simp [hpre] at hok
    | ok l s1 ls =>
      simp only [hpre] at hok ⊢
      by_cases hc : (matches_ w.st.lines ls && w.st.done.isSome && !w.st.newer) = true
      · rw [if_pos hc]
        simp only [Bool.and_eq_true, Bool.not_eq_true'] at hc
        obtain ⟨⟨hm, hd⟩, hn⟩ := hc
        cases hls : w.st.lines with
        | none => rw [hls] at hm; cases hm
        | some o =>
          obtain ⟨j, ts', p', s0, l', s1', hj, htj, hpj, hprj, hr⟩ := h2 o hls
          rw [hls] at hm
          obtain ⟨e1, e2, e3, e4⟩ :=
            match_same S fuel parse hg.steady h1 hj ht htj hp hpj hpre hprj hm
          subst e1 e2 e3
          cases hdn : w.st.done with
          | none => rw [hdn] at hd; cases hd
          | some r =>
            obtain ⟨hs0, l2, s2, hb, hout⟩ := hr r hdn
            have := hs0 hn
            subst this
            obtain ⟨l3, hb3⟩ := body_same S fuel parse hg h1 hj ht htj hp e4 hpre hprj
              (execs_plain S fuel p' j _ _ _ _ _ hb)
            exact ⟨ts', l3, s2, ht, hmean _ _ _ _ _ hpre hb3, by rw [← hout]⟩
      · rw [if_neg hc] at hok ⊢
        cases hb : execs S (ctx fuel p w.inp true) p.body l s1 with
        | ok l2 s2 =>
          simp only
          exact ⟨ts, l2, s2, ht, hmean _ _ _ _ _ hpre (execs_plain S fuel p w.inp _ _ _ _ _ hb),
            rfl⟩
        | fail => simp [hb] at hok
        | stuck => simp [hb] at hok

end Verif.Recipe
