import Verif.Recipe.Lemmas

/-! # Changes that an ad hoc recipe depends on: what the checksums tell apart -/

namespace Verif.Recipe

variable {σ ξ ρ : Type}

theorem str_inj {a b : Str} {x y : List Nat} (ha : 0 ∉ a) (hb : 0 ∉ b)
    (h : str a ++ x = str b ++ y) : a = b ∧ x = y := by
  induction a generalizing b with
  | nil =>
    cases b with
    | nil => simpa [str] using h
    | cons c b =>
      simp only [str, List.nil_append, List.cons_append, List.append_assoc] at h
      injection h with h1 _
      simp [← h1] at hb
  | cons c a ih =>
    cases b with
    | nil =>
      simp only [str, List.nil_append, List.cons_append, List.append_assoc] at h
      injection h with h1 _
      simp [h1] at ha
    | cons d b =>
      simp only [str, List.cons_append] at h
      injection h with h1 h2
      simp only [List.mem_cons, not_or] at ha hb
      obtain ⟨e1, e2⟩ := ih ha.2 hb.2 (by simpa [str] using h2)
      exact ⟨by rw [h1, e1], e2⟩

theorem nameSum_plain {n : Name} (h : n.Plain) (x : List Nat) :
    nameSum n ++ x = str n.dir ++ (str n.type ++ (str n.value ++ (n.pair :: x))) := by
  simp [nameSum, h.proj, h.pat]

theorem nameSum_inj {m n : Name} (hm : m.Plain) (hn : n.Plain) {x y : List Nat}
    (h : nameSum m ++ x = nameSum n ++ y) : m = n ∧ x = y := by
  rw [nameSum_plain hm, nameSum_plain hn] at h
  obtain ⟨h1, h⟩ := str_inj hm.dir hn.dir h
  obtain ⟨h2, h⟩ := str_inj hm.type hn.type h
  obtain ⟨h3, h⟩ := str_inj hm.val hn.val h
  injection h with h4 h5
  refine ⟨?_, h5⟩
  have p1 := hm.proj; have p2 := hn.proj; have q1 := hm.pat; have q2 := hn.pat
  cases m; cases n; simp_all

theorem namesSum_inj {ms ns : List Name} (hm : ∀ m ∈ ms, m.Plain) (hn : ∀ n ∈ ns, n.Plain)
    (h : namesSum ms = namesSum ns) : ms = ns := by
  induction ms generalizing ns with
  | nil =>
    cases ns with
    | nil => rfl
    | cons n ns =>
      exfalso
      simp only [namesSum, List.flatMap_nil, List.flatMap_cons] at h
      rw [nameSum_plain (hn n (by simp))] at h
      simp [str] at h
  | cons m ms ih =>
    cases ns with
    | nil =>
      exfalso
      simp only [namesSum, List.flatMap_nil, List.flatMap_cons] at h
      rw [nameSum_plain (hm m (by simp))] at h
      simp [str] at h
    | cons n ns =>
      obtain ⟨h1, h2⟩ := nameSum_inj (hm m (by simp)) (hn n (by simp))
        (x := namesSum ms) (y := namesSum ns) (by simpa [namesSum] using h)
      rw [h1, ih (fun a ha => hm a (by simp [ha])) (fun a ha => hn a (by simp [ha])) h2]

/-- Where the names of a value end: there is either nothing more, or the name of the next
variable, and then one of the three bytes. -/
def Tail (x : List Nat) : Prop :=
  x = [] ∨ ∃ n b r, 0 ∉ n ∧ (b = 1 ∨ b = 2 ∨ b = 3) ∧ x = str n ++ b :: r

/-- The names end in the same place. -/
theorem names_tail {ms ns : List Name} {x y : List Nat} (hm : ∀ m ∈ ms, m.Plain)
    (hn : ∀ n ∈ ns, n.Plain) (hx : Tail x) (hy : Tail y)
    (h : namesSum ms ++ x = namesSum ns ++ y) : ms = ns ∧ x = y := by
  have key : ∀ (n : Name) (r x : List Nat), n.Plain → Tail x → nameSum n ++ r = x → False := by
    intro n r x hp ht h
    rw [nameSum_plain hp] at h
    rcases ht with rfl | ⟨m, b, r', hm, hb, rfl⟩
    · simp [str] at h
    · obtain ⟨_, h2⟩ := str_inj hp.dir hm h
      cases ht : n.type with
      | nil =>
        rw [ht] at h2
        simp only [str, List.nil_append, List.cons_append] at h2
        injection h2 with h3 _
        omega
      | cons c cs =>
        have := hp.head c cs ht
        rw [ht] at h2
        simp only [str, List.cons_append] at h2
        injection h2 with h3 _
        omega
  induction ms generalizing ns with
  | nil =>
    cases ns with
    | nil => exact ⟨rfl, h⟩
    | cons n ns =>
      exfalso
      refine key n (namesSum ns ++ y) x (hn n (by simp)) hx ?_
      simpa [namesSum] using h.symm
  | cons m ms ih =>
    cases ns with
    | nil =>
      exfalso
      refine key m (namesSum ms ++ x) y (hm m (by simp)) hy ?_
      simpa [namesSum] using h
    | cons n ns =>
      obtain ⟨h1, h2⟩ := nameSum_inj (hm m (by simp)) (hn n (by simp))
        (x := namesSum ms ++ x) (y := namesSum ns ++ y) (by simpa [namesSum] using h)
      obtain ⟨h3, h4⟩ := ih (fun a ha => hm a (by simp [ha])) (fun a ha => hn a (by simp [ha])) h2
      exact ⟨by rw [h1, h3], h4⟩

theorem valSum_head (v : Option Val) : ∃ b r, (b = 1 ∨ b = 2 ∨ b = 3) ∧ valSum v = b :: r := by
  cases v with
  | none => exact ⟨1, [], by simp, rfl⟩
  | some v =>
    obtain ⟨t, d⟩ := v
    cases d with
    | none => exact ⟨2, [], by simp, rfl⟩
    | some ns => exact ⟨3, namesSum ns, by simp, rfl⟩

theorem varsSum_tail (env : Env) (ns : List Str) (h : ∀ n ∈ ns, 0 ∉ n) :
    Tail (varsSum env ns) := by
  cases ns with
  | nil => exact Or.inl rfl
  | cons n ns =>
    obtain ⟨b, r, hb, he⟩ := valSum_head (env n)
    exact Or.inr ⟨n, b, r ++ varsSum env ns, h n (by simp), hb, by simp [varsSum, he]⟩

/-- The value is not unusual. -/
def ValPlain (v : Option Val) : Prop := ∀ w ns, v = some w → w.data = some ns → ∀ n ∈ ns, n.Plain

theorem valSum_inj {v w : Option Val} {x y : List Nat} (hv : ValPlain v) (hw : ValPlain w)
    (hx : Tail x) (hy : Tail y) (ht : ∀ a b, v = some a → w = some b → a.ty = b.ty)
    (h : valSum v ++ x = valSum w ++ y) : v = w ∧ x = y := by
  match v, w, hv, hw, ht, h with
  | none, none, _, _, _, h => simp only [valSum] at h; injection h with _ h; exact ⟨rfl, h⟩
  | none, some ⟨_, none⟩, _, _, _, h => simp [valSum] at h
  | none, some ⟨_, some _⟩, _, _, _, h => simp [valSum] at h
  | some ⟨_, none⟩, none, _, _, _, h => simp [valSum] at h
  | some ⟨_, some _⟩, none, _, _, _, h => simp [valSum] at h
  | some ⟨_, none⟩, some ⟨_, some _⟩, _, _, _, h => simp [valSum] at h
  | some ⟨_, some _⟩, some ⟨_, none⟩, _, _, _, h => simp [valSum] at h
  | some ⟨a, none⟩, some ⟨b, none⟩, _, _, ht, h =>
    simp only [valSum] at h; injection h with _ h
    have : a = b := ht _ _ rfl rfl
    exact ⟨by rw [this], h⟩
  | some ⟨a, some ms⟩, some ⟨b, some ns⟩, hv, hw, ht, h =>
    simp only [valSum, List.cons_append] at h; injection h with _ h
    have : a = b := ht _ _ rfl rfl
    obtain ⟨h1, h2⟩ := names_tail (hv _ ms rfl rfl) (hw _ ns rfl rfl) hx hy h
    exact ⟨by rw [this, h1], h2⟩

/-- The values of the variables are the same if the checksums are. -/
theorem varsSum_inj {env env' : Env} (ns : List Str) (hn : ∀ n ∈ ns, 0 ∉ n)
    (hp : ∀ n, ValPlain (env n)) (hp' : ∀ n, ValPlain (env' n))
    (ht : ∀ n a b, env n = some a → env' n = some b → a.ty = b.ty)
    (h : varsSum env ns = varsSum env' ns) : ∀ n ∈ ns, env n = env' n := by
  induction ns with
  | nil => intro n h; cases h
  | cons m ms ih =>
    have hm : ∀ n ∈ ms, 0 ∉ n := fun n h => hn n (by simp [h])
    simp only [varsSum, List.append_assoc] at h
    obtain ⟨_, h⟩ := str_inj (hn m (by simp)) (hn m (by simp)) h
    obtain ⟨h1, h2⟩ := valSum_inj (hp m) (hp' m) (varsSum_tail env ms hm)
      (varsSum_tail env' ms hm) (ht m) h
    intro n hmem
    cases hmem with
    | head => exact h1
    | tail _ hmem => exact ih hm h2 n hmem

/-- Strings one after the other. -/
theorem strs_inj {as bs : List Str} (ha : ∀ a ∈ as, 0 ∉ a) (hb : ∀ b ∈ bs, 0 ∉ b)
    (h : as.flatMap str = bs.flatMap str) : as = bs := by
  induction as generalizing bs with
  | nil =>
    cases bs with
    | nil => rfl
    | cons b bs => simp [str] at h
  | cons a as ih =>
    cases bs with
    | nil => simp [str] at h
    | cons b bs =>
      simp only [List.flatMap_cons] at h
      obtain ⟨h1, h2⟩ := str_inj (ha a (by simp)) (hb b (by simp)) h
      rw [h1, ih (fun c hc => ha c (by simp [hc])) (fun c hc => hb c (by simp [hc])) h2]

/-- The paths of targets that all have one. -/
theorem targets_paths (ts : List Tgt) (h : ∀ t ∈ ts, ∃ p, t.path = some p) :
    ts.flatMap targetSum = (ts.map fun t => t.path.getD []).flatMap str := by
  induction ts with
  | nil => rfl
  | cons t ts ih =>
    obtain ⟨p, hp⟩ := h t (by simp)
    simp only [List.flatMap_cons, List.map_cons, targetSum, hp, Option.getD_some]
    rw [ih fun u hu => h u (by simp [hu])]

/-- Lists that are the same except for what has been determined. -/
theorem map_eq_of {α β γ : Type} {f : α → β} {g : α → γ}
    {as bs : List α} (h : as.map f = bs.map f)
    (hab : ∀ a ∈ as, ∀ b ∈ bs, f a = f b → g a = g b) : as.map g = bs.map g := by
  induction as generalizing bs with
  | nil => cases bs with | nil => rfl | cons b bs => cases h
  | cons a as ih =>
    cases bs with
    | nil => cases h
    | cons b bs =>
      simp only [List.map_cons] at h ⊢
      injection h with h1 h2
      rw [hab a (by simp) b (by simp) h1,
        ih h2 fun x hx y hy => hab x (by simp [hx]) y (by simp [hy])]

end Verif.Recipe
