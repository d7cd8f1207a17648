import Verif.Backlink.Model

/-! # Backlinks: lemmas -/

namespace Verif.Backlink

theorem set_same (fs : Fs) (p : Path) (v : Option Node) : fs.set p v p = v := by simp [Fs.set]

theorem set_other (fs : Fs) {p q : Path} (v : Option Node) (h : q ≠ p) : fs.set p v q = fs q := by
  simp [Fs.set, h]

theorem read_iff {fs : Fs} {n : Nat} {p : Path} {c : Nat} :
    read fs n p = some c ↔ ∃ k, k < n ∧ Reads fs p k c := by
  induction n generalizing p with
  | zero => simp [read]
  | succ n ih =>
    simp only [read]
    constructor
    · intro h
      cases hp : fs p with
      | none => rw [hp] at h; cases h
      | some x =>
        rw [hp] at h
        cases x with
        | dir => cases h
        | reg d => cases h; exact ⟨0, by omega, .reg hp⟩
        | sym q =>
          obtain ⟨k, a, b⟩ := ih.1 h
          exact ⟨k + 1, by omega, .sym hp b⟩
    · rintro ⟨k, a, b⟩
      cases b with
      | reg h => rw [h]
      | sym h b => rw [h]; exact ih.2 ⟨_, by omega, b⟩

/-- Agreement of file systems but for some paths. -/
def Agree (S : Path → Prop) (a b : Fs) : Prop := ∀ q, ¬ S q → a q = b q

theorem Agree.trans {S : Path → Prop} {a b c : Fs} (h : Agree S a b) (k : Agree S b c) :
    Agree S a c := fun q hq => (h q hq).trans (k q hq)

theorem reads_agree {S : Path → Prop} {a b : Fs} (h : Agree S a b) {p : Path} {k c : Nat}
    (r : Reads a p k c) (ht : ∀ q, Through a p q → ¬ S q) : Reads b p k c := by
  induction r with
  | reg e => exact .reg ((h _ (ht _ .here)) ▸ e)
  | sym e _ ih => exact .sym ((h _ (ht _ .here)) ▸ e) (ih fun q t => ht q (.sym e t))

theorem read_agree {S : Path → Prop} {a b : Fs} (h : Agree S a b) (n : Nat) {p : Path}
    (ht : ∀ q, Through a p q → ¬ S q) : read b n p = read a n p := by
  induction n generalizing p with
  | zero => rfl
  | succ n ih =>
    simp only [read, ← h _ (ht _ .here)]
    cases hp : a p with
    | none => rfl
    | some x =>
      cases x with
      | dir => rfl
      | reg c => rfl
      | sym q => exact ih fun r t => ht r (.sym hp t)

theorem follow_plain {fs : Fs} {n : Nat} {p q : Path} (h : ∀ r, fs p ≠ some (.sym r))
    (e : follow fs n p = some q) : q = p := by
  cases n with
  | zero => cases e
  | succ n =>
    simp only [follow] at e
    cases hp : fs p with
    | none => rw [hp] at e; cases e; rfl
    | some x =>
      rw [hp] at e
      cases x with
      | dir => cases e
      | reg c => cases e; rfl
      | sym r => exact absurd hp (h r)

theorem remove_frame (fs : Fs) (l : Link) {q : Path} (h : q ≠ l.path) : (remove fs l).1 q = fs q := by
  unfold remove
  cases l.mode <;> simp only [] <;> first | rfl | (split <;> first | rfl | exact set_other fs _ h)

/-- What removing leaves. -/
theorem remove_left (fs : Fs) (l : Link) (h : l.mode ≠ .overwrite) :
    ((remove fs l).2 = true ∧ (remove fs l).1 l.path = none) ∨
    ((remove fs l).2 = false ∧ (remove fs l).1 = fs ∧ fs l.path = some .dir) := by
  unfold remove
  cases hm : l.mode <;> simp only [] <;> first
    | exact absurd hm h
    | (split
       · rename_i hd; exact .inr ⟨rfl, rfl, hd⟩
       · exact .inl ⟨rfl, set_same _ _ _⟩)

theorem remove_overwrite (fs : Fs) (l : Link) (h : l.mode = .overwrite) : remove fs l = (fs, true) := by
  unfold remove; rw [h]

theorem update_frame {n : Nat} {fs : Fs} {l : Link}
    (hp : l.mode = .overwrite → ∀ r, fs l.path ≠ some (.sym r)) {q : Path} (h : q ≠ l.path) :
    (update n fs l).1 q = fs q := by
  have hr := remove_frame fs l h
  unfold update
  rcases e : remove fs l with ⟨fs', _ | _⟩
  · rw [e] at hr; exact hr
  · rw [e] at hr
    simp only []
    cases read fs' n l.target with
    | none => exact hr
    | some c =>
      simp only []
      split
      · unfold make
        cases hm : l.mode with
        | overwrite =>
          have e' : fs' = fs := by
            rw [remove_overwrite fs l hm] at e
            exact (congrArg Prod.fst e).symm
          subst e'
          simp only []
          cases hf : follow fs' n l.path with
          | none => rfl
          | some r =>
            have := follow_plain (hp hm) hf
            subst this
            exact set_other fs' _ h
        | _ => exact (set_other fs' _ h).trans hr
      · exact hr

/-- What a link is once updated. -/
theorem update_done {n : Nat} {fs fs' : Fs} {l : Link}
    (hp : l.mode = .overwrite → ∀ r, fs l.path ≠ some (.sym r))
    (ht : ¬ Through fs l.target l.path) (h : update n fs l = (fs', true)) :
    (∀ c, read fs n l.target = some c →
      fs' l.path = some (.sym l.target) ∨ fs' l.path = some (.reg c)) ∧
    (read fs n l.target = none → l.mode ≠ .overwrite → fs' l.path = none) := by
  unfold update at h
  have hr : read (remove fs l).1 n l.target = read fs n l.target := by
    refine read_agree (S := fun q => q = l.path) (fun q hq => (remove_frame fs l hq).symm) n ?_
    rintro q t rfl
    exact ht t
  have hl := remove_left fs l
  rcases e : remove fs l with ⟨fs1, _ | _⟩
  · rw [e] at h; cases h
  · rw [e] at h hr hl
    simp only [] at h hr hl
    rw [hr] at h
    cases hc : read fs n l.target with
    | none =>
      rw [hc] at h
      cases h
      refine ⟨by simp, fun _ hm => ?_⟩
      rcases hl hm with ⟨-, a⟩ | ⟨a, -⟩
      · exact a
      · cases a
    | some c =>
      rw [hc] at h
      simp only [] at h
      refine ⟨?_, by simp⟩
      rintro c' hc'
      cases hc'
      split at h
      · unfold make at h
        cases hm : l.mode with
        | overwrite =>
          have e' : fs1 = fs := by
            rw [remove_overwrite fs l hm] at e
            exact (congrArg Prod.fst e).symm
          subst e'
          rw [hm] at h
          simp only [] at h
          cases hf : follow fs1 n l.path with
          | none => rw [hf] at h; cases h
          | some r =>
            rw [hf] at h
            have := follow_plain (hp hm) hf
            subst this
            cases h
            exact .inr (set_same _ _ _)
        | _ =>
          rw [hm] at h
          cases h
          first
            | exact .inl (set_same _ _ _)
            | exact .inr (set_same _ _ _)
      · cases h

theorem updates_frame {n : Nat} {ls : List Link} : ∀ {fs : Fs}, Plain fs ls → Distinct ls →
    ∀ {q : Path}, (∀ l ∈ ls, q ≠ l.path) → (updates n fs ls).1 q = fs q := by
  induction ls with
  | nil => intros; rfl
  | cons l ls ih =>
    intro fs hp hd q hq
    have hp' := hp l List.mem_cons_self
    have hu := update_frame (n := n) hp' (hq l List.mem_cons_self)
    have hd' := List.nodup_cons.1 hd
    simp only [updates]
    rcases e : update n fs l with ⟨fs', _ | _⟩
    · rw [e] at hu; exact hu
    · rw [e] at hu
      refine (ih ?_ hd'.2 fun l' h => hq l' (List.mem_cons_of_mem _ h)).trans hu
      intro l' h' hm r
      have ne : l'.path ≠ l.path := fun k => hd'.1 (List.mem_map.2 ⟨l', h', k⟩)
      have := update_frame (n := n) hp' ne
      rw [e] at this
      simp only [] at this
      rw [this]
      exact hp l' (List.mem_cons_of_mem _ h') hm r

theorem updates_done {n : Nat} {B : Fs} {S : Path → Prop} {ls : List Link} : ∀ {fs fs' : Fs},
    Agree S B fs → Plain fs ls → Distinct ls → (∀ l ∈ ls, S l.path) →
    (∀ l ∈ ls, ∀ q, Through B l.target q → ¬ S q) → updates n fs ls = (fs', true) →
    ∀ l ∈ ls, (∀ c, read B n l.target = some c →
        fs' l.path = some (.sym l.target) ∨ fs' l.path = some (.reg c)) ∧
      (read B n l.target = none → l.mode ≠ .overwrite → fs' l.path = none) := by
  induction ls with
  | nil => intro fs fs' _ _ _ _ _ _ l hl; cases hl
  | cons l ls ih =>
    intro fs fs' ha hp hd hs ht h
    have hp' := hp l List.mem_cons_self
    have hd' := List.nodup_cons.1 hd
    simp only [updates] at h
    rcases e : update n fs l with ⟨fs1, _ | _⟩
    · rw [e] at h; cases h
    · rw [e] at h
      simp only [] at h
      have fr : ∀ q, q ≠ l.path → fs1 q = fs q := by
        intro q hq
        have := update_frame (n := n) hp' hq
        rw [e] at this
        exact this
      have hpl : Plain fs1 ls := by
        intro l' h' hm r
        rw [fr l'.path fun k => hd'.1 (List.mem_map.2 ⟨l', h', k⟩)]
        exact hp l' (List.mem_cons_of_mem _ h') hm r
      have ag : Agree S B fs1 := by
        intro q hq
        rw [fr q fun k => hq (k ▸ hs l List.mem_cons_self)]
        exact ha q hq
      intro l' hl'
      rcases List.mem_cons.1 hl' with rfl | hl'
      · have hrd := read_agree ha n (ht l' List.mem_cons_self)
        have thr : ¬ Through fs l'.target l'.path := by
          intro t
          have : ∀ p q, Through fs p q → (∀ r, Through B p r → ¬ S r) → Through B p q := by
            intro p q t
            induction t with
            | here => intro _; exact .here
            | @sym p r q e _ ih =>
              intro hb
              have e' : B p = some (.sym r) := (ha p (hb p .here)).trans e
              exact .sym e' (ih fun x tx => hb x (.sym e' tx))
          exact ht l' List.mem_cons_self _ (this _ _ t (ht l' List.mem_cons_self))
            (hs l' List.mem_cons_self)
        have dn := update_done hp' thr e
        rw [hrd] at dn
        have keep : fs' l'.path = fs1 l'.path := by
          have := updates_frame (n := n) hpl hd'.2 (q := l'.path)
            fun m hm k => hd'.1 (List.mem_map.2 ⟨m, hm, k.symm⟩)
          rw [h] at this
          exact this
        rw [keep]
        exact dn
      · exact ih ag hpl hd'.2 (fun m hm => hs m (List.mem_cons_of_mem _ hm))
          (fun m hm => ht m (List.mem_cons_of_mem _ hm)) h l' hl'

theorem mkdirs_some {fs : Fs} {d q : Path} {x : Node} (h : fs q = some x) : mkdirs fs d q = some x := by
  simp [mkdirs, h]

theorem mkdirs_old {fs : Fs} {d q : Path} {x : Node} (h : mkdirs fs d q = some x) (hx : x ≠ .dir) :
    fs q = some x := by
  unfold mkdirs at h
  cases hq : fs q with
  | some y => rw [hq] at h; exact h
  | none =>
    rw [hq] at h
    simp only [] at h
    split at h
    · cases h; exact absurd rfl hx
    · cases h

theorem mkdirs_frame {fs : Fs} {d q : Path} (h : ¬ q <+: d) : mkdirs fs d q = fs q := by
  unfold mkdirs
  cases fs q with
  | some y => rfl
  | none =>
    simp only []
    rw [if_neg]
    intro k
    exact h (List.isPrefixOf_iff_prefix.1 k)

theorem mkdirs_through {fs : Fs} {d p q : Path} (h : Through (mkdirs fs d) p q) : Through fs p q := by
  induction h with
  | here => exact .here
  | sym e _ ih => exact .sym (mkdirs_old e (by simp)) ih

theorem mkdirs_reads {fs : Fs} {d p : Path} {k c : Nat} :
    Reads (mkdirs fs d) p k c ↔ Reads fs p k c := by
  constructor
  · intro h
    induction h with
    | reg e => exact .reg (mkdirs_old e (by simp))
    | sym e _ ih => exact .sym (mkdirs_old e (by simp)) ih
  · intro h
    induction h with
    | reg e => exact .reg (mkdirs_some e)
    | sym e _ ih => exact .sym (mkdirs_some e) ih

theorem unlink_frame {ls : List Link} : ∀ {fs : Fs} {q : Path}, (∀ l ∈ ls, q ≠ l.path) →
    unlink fs ls q = fs q := by
  induction ls with
  | nil => intros; rfl
  | cons l ls ih =>
    intro fs q h
    simp only [unlink]
    rw [ih fun l' h' => h l' (List.mem_cons_of_mem _ h'), remove_frame fs l (h l List.mem_cons_self)]

/-- Removing never makes an entry. -/
theorem remove_less (fs : Fs) (l : Link) (q : Path) :
    (remove fs l).1 q = none ∨ (remove fs l).1 q = fs q := by
  by_cases h : q = l.path
  · subst h
    by_cases hm : l.mode = .overwrite
    · rw [remove_overwrite fs l hm]; exact .inr rfl
    · rcases remove_left fs l hm with ⟨-, a⟩ | ⟨-, a, -⟩
      · exact .inl a
      · rw [a]; exact .inr rfl
  · exact .inr (remove_frame fs l h)

theorem unlink_less {ls : List Link} : ∀ (fs : Fs) (q : Path),
    unlink fs ls q = none ∨ unlink fs ls q = fs q := by
  induction ls with
  | nil => intros; exact .inr rfl
  | cons l ls ih =>
    intro fs q
    simp only [unlink]
    rcases ih (remove fs l).1 q with h | h
    · exact .inl h
    · rw [h]
      exact remove_less fs l q

theorem unlink_gone {ls : List Link} : ∀ {fs : Fs}, ∀ l ∈ ls, l.mode ≠ .overwrite →
    unlink fs ls l.path = none ∨ unlink fs ls l.path = some .dir := by
  induction ls with
  | nil => intro fs l h; cases h
  | cons l ls ih =>
    intro fs l' h hm
    simp only [unlink]
    rcases List.mem_cons.1 h with rfl | h
    · rcases unlink_less (ls := ls) (remove fs l').1 l'.path with k | k
      · exact .inl k
      · rw [k]
        rcases remove_left fs l' hm with ⟨-, a⟩ | ⟨-, a, b⟩
        · exact .inl a
        · rw [a]; exact .inr b
    · exact ih l' h hm

theorem clean_frame {ls : List Link} : ∀ {fs : Fs} {q : Path}, (∀ l ∈ ls, q ≠ l.path) →
    (clean fs ls).1 q = fs q := by
  induction ls with
  | nil => intros; rfl
  | cons l ls ih =>
    intro fs q h
    have hr := remove_frame fs l (h l List.mem_cons_self)
    simp only [clean]
    rcases e : remove fs l with ⟨fs', _ | _⟩
    · rw [e] at hr; exact hr
    · rw [e] at hr
      exact (ih fun l' h' => h l' (List.mem_cons_of_mem _ h')).trans hr

theorem clean_less {ls : List Link} : ∀ (fs : Fs) (q : Path),
    (clean fs ls).1 q = none ∨ (clean fs ls).1 q = fs q := by
  induction ls with
  | nil => intros; exact .inr rfl
  | cons l ls ih =>
    intro fs q
    have hr := remove_less fs l q
    simp only [clean]
    rcases e : remove fs l with ⟨fs', _ | _⟩
    · rw [e] at hr; exact hr
    · rw [e] at hr
      rcases ih fs' q with h | h
      · exact .inl h
      · simp only []
        rw [h]
        exact hr

/-- Cleaning succeeds if and only if no directory is in the way. -/
theorem clean_ok {ls : List Link} : ∀ {fs : Fs}, (∀ l ∈ ls, fs l.path ≠ some .dir) →
    (clean fs ls).2 = true ∧ ∀ l ∈ ls, l.mode ≠ .overwrite → (clean fs ls).1 l.path = none := by
  induction ls with
  | nil => intro fs _; exact ⟨rfl, fun l h => by cases h⟩
  | cons l ls ih =>
    intro fs hn
    simp only [clean]
    have hl := hn l List.mem_cons_self
    have h2 : (remove fs l).2 = true := by
      by_cases hm : l.mode = .overwrite
      · rw [remove_overwrite fs l hm]
      · rcases remove_left fs l hm with ⟨a, -⟩ | ⟨-, -, a⟩
        · exact a
        · exact absurd a hl
    have hless := remove_less fs l
    have hleft := remove_left fs l
    rcases e : remove fs l with ⟨fs', b⟩
    rw [e] at h2 hless hleft
    simp only [] at h2 hless hleft
    subst h2
    simp only []
    have hn' : ∀ l' ∈ ls, fs' l'.path ≠ some .dir := by
      intro l' h' k
      rcases hless l'.path with a | a
      · rw [k] at a; cases a
      · exact hn l' (List.mem_cons_of_mem _ h') (a ▸ k)
    obtain ⟨a, b⟩ := ih hn'
    refine ⟨a, fun l' h' hm => ?_⟩
    rcases List.mem_cons.1 h' with rfl | h'
    · rcases clean_less (ls := ls) fs' l'.path with k | k
      · exact k
      · rw [k]
        rcases hleft hm with ⟨-, c⟩ | ⟨c, -⟩
        · exact c
        · cases c
    · exact b l' h' hm

theorem modeOf_iff {g : Option Mode} {v : String} {m : Option Mode} :
    modeOf g v = some m ↔ Spells g v m := by
  constructor
  · unfold modeOf
    intro h
    repeat' split at h
    all_goals first
      | (cases h; subst_vars; constructor)
      | (cases h; done)
  · intro h
    cases h <;> rfl

end Verif.Backlink
