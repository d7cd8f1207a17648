import Verif.Clean.Effect

/-! # The clean operation: number of steps, and depth of directories -/

namespace Verif.Clean

/-- A given number of steps. -/
inductive Steps {α : Type} (R : α → α → Prop) : Nat → α → α → Prop
  | zero {a} : Steps R 0 a a
  | succ {n a b c} : Steps R n a b → R b c → Steps R (n + 1) a c

theorem Steps.star {α : Type} {R : α → α → Prop} {n : Nat} {a b : α} (h : Steps R n a b) :
    Star R a b := by
  induction h with
  | zero => exact .refl
  | succ _ h ih => exact .tail ih h

/-- The total of weights. -/
def total (w : Nat → Nat) (us : List Nat) : Nat := (us.map w).sum

theorem total_left (w : Nat → Nat) {M done : List Nat} {t : Nat} (hM : M.Nodup) (ht : t ∈ M)
    (hd : t ∉ done) : total w (left M done) = w t + total w (left M (t :: done)) := by
  induction M with
  | nil => cases ht
  | cons u M ih =>
    rw [List.nodup_cons] at hM
    rcases List.mem_cons.1 ht with rfl | ht
    · have h1 : left (t :: M) done = t :: left M done := by
        unfold left; rw [List.filter_cons_of_pos (by simpa using hd)]
      have h2 : left (t :: M) (t :: done) = left M (t :: done) := by
        unfold left; rw [List.filter_cons_of_neg (by simp)]
      have h3 : left M (t :: done) = left M done := by
        unfold left
        apply List.filter_congr
        intro x hx
        have : x ≠ t := fun e => hM.1 (e ▸ hx)
        simp [this]
      rw [h1, h2, h3]
      simp [total]
    · have hne : u ≠ t := fun e => hM.1 (e ▸ ht)
      have ih := ih hM.2 ht
      by_cases hu : u ∈ done
      · have h1 : left (u :: M) done = left M done := by
          unfold left; rw [List.filter_cons_of_neg (by simpa using hu)]
        have h2 : left (u :: M) (t :: done) = left M (t :: done) := by
          unfold left; rw [List.filter_cons_of_neg (by simp [hu])]
        rw [h1, h2, ih]
      · have h1 : left (u :: M) done = u :: left M done := by
          unfold left; rw [List.filter_cons_of_pos (by simpa using hu)]
        have h2 : left (u :: M) (t :: done) = u :: left M (t :: done) := by
          unfold left; rw [List.filter_cons_of_pos (by simp [hu, hne])]
        rw [h1, h2]
        have e : ∀ l, total w (u :: l) = w u + total w l := fun l => by simp [total]
        rw [e, e, ih]
        omega

theorem left_congr {M a b : List Nat} (h : ∀ x, x ∈ a ↔ x ∈ b) : left M a = left M b := by
  unfold left
  apply List.filter_congr
  intro x _
  simp [h x]

theorem steps_le {α : Type} {R : α → α → Prop} (μ : α → Nat) {a : α}
    (h : ∀ b c, Star R a b → R b c → μ c < μ b) {n : Nat} {b : α} (hs : Steps R n a b) :
    n + μ b ≤ μ a := by
  induction hs with
  | zero => omega
  | succ hs hr ih =>
    have := h _ _ hs.star hr
    have := ih h
    omega

def Match.rest (g : Graph) (N : List Nat) (m : Match) : Nat :=
  m.calls.length + total (fun t => (pre g t).length) (left N m.matched)

theorem match_steps {g : Graph} {roots N : List Nat} (hN : N.Nodup)
    (hc : ∀ t, g.Cleaned roots t → t ∈ N) {n : Nat} {m : Match}
    (h : Steps (Match.Step g) n ⟨roots, [], fun _ => 0⟩ m) :
    n ≤ Match.rest g N ⟨roots, [], fun _ => 0⟩ := by
  have := steps_le (Match.rest g N) (fun b c hb hs => ?_) h
  · omega
  · have hi := match_inv hb
    cases hs with
    | @again l t r he ht =>
      unfold Match.rest
      simp only [he, List.length_append, List.length_cons]
      omega
    | @first l t r he ht =>
      have hin := hc t (hi.cleaned t (Or.inl (by rw [he]; simp)))
      have := total_left (fun t => (pre g t).length) hN hin ht
      unfold Match.rest
      simp only [he, List.length_append, List.length_cons]
      omega

/-- What there is to do for a target. -/
def work (g : Graph) (t : Nat) : Nat := (acts (g.target t)).length + 1 + (pre g t).length

def Exec.rest (g : Graph) (M : List Nat) (s : Exec) : Nat :=
  s.calls.length + total (work g) (left M s.started) +
  (s.running.map fun x => x.2.length + 1 + (pre g x.1).length).sum

theorem exec_steps {g : Graph} {roots M : List Nat} {count : Nat → Nat} {fs : FS} {s : Exec}
    (hm : Matched g roots M count) {n : Nat}
    (h : Steps (Exec.Step g) n ⟨fs, count, roots, [], [], []⟩ s) :
    n ≤ Exec.rest g M ⟨fs, count, roots, [], [], []⟩ := by
  have := steps_le (Exec.rest g M) (fun b c hb hs => ?_) h
  · omega
  · have hi := exec_inv hm hb
    unfold Exec.rest
    cases hs with
    | @postpone l t r he hn =>
      have e : Exec.started { b with calls := l ++ r, count := drop b.count t } = b.started := rfl
      rw [e]
      simp only [he, List.length_append, List.length_cons]
      omega
    | @start l t r he hz =>
      have hp : 0 < b.count t := by
        rw [hi.count t, he, count_mid, if_pos rfl]
        omega
      obtain ⟨hM, hns⟩ := (hi.pos t).1 hp
      have hl := total_left (work g) hm.nodup hM hns
      have e : Exec.started { b with
          calls := l ++ r, count := drop b.count t,
          running := (t, acts (g.target t)) :: b.running } = t :: b.started := rfl
      rw [e]
      simp only [he, List.length_append, List.length_cons, List.map_cons, List.sum_cons]
      have : work g t = (acts (g.target t)).length + 1 + (pre g t).length := rfl
      omega
    | @act l t a as r f he hf =>
      have e : Exec.started { b with fs := f, running := l ++ (t, as) :: r } = b.started := by
        unfold Exec.started; rw [he]; simp
      rw [e]
      simp only [he, List.map_append, List.map_cons, List.sum_append, List.sum_cons,
        List.length_cons]
      omega
    | @finish l t r he =>
      have e : left M (Exec.started { b with
          running := l ++ r, done := t :: b.done, calls := b.calls ++ (pre g t).reverse }) =
          left M b.started := by
        apply left_congr
        intro x
        unfold Exec.started
        rw [he]
        simp only [List.map_append, List.map_cons, List.mem_append, List.mem_cons]
        constructor
        · rintro (((h | h) | h | h) | h) <;> simp [h]
        · rintro (((h | h | h) | h) | h) <;> simp [h]
      rw [e]
      simp only [he, List.map_append, List.map_cons, List.sum_append, List.sum_cons,
        List.length_append, List.length_reverse, List.length_nil]
      omega
    | @fail l t bs r he =>
      have e : left M (Exec.started { b with
          running := l ++ r, failed := t :: b.failed }) = left M b.started := by
        apply left_congr
        intro x
        unfold Exec.started
        rw [he]
        simp only [List.map_append, List.map_cons, List.mem_append, List.mem_cons]
        constructor
        · rintro (((h | h) | h) | h | h) <;> simp [h]
        · rintro (((h | h | h) | h) | h) <;> simp [h]
      rw [e]
      simp only [he, List.map_append, List.map_cons, List.sum_append, List.sum_cons]
      omega

/-! ## Depth -/

/-- Induction over the directories of a filesystem, from inner to outer ones. -/
theorem dirs_induction (l : List Path) {P : Path → Prop}
    (h : ∀ d ∈ l, (∀ e ∈ l, e ≠ [] → e.dropLast = d → P e) → P d) : ∀ d ∈ l, P d := by
  have hb : ∃ b, ∀ d ∈ l, d.length ≤ b := by
    clear h
    induction l with
    | nil => exact ⟨0, nofun⟩
    | cons x l ih =>
      obtain ⟨b, hb⟩ := ih
      refine ⟨max b x.length, fun d hd => ?_⟩
      rcases List.mem_cons.1 hd with rfl | hd
      · omega
      · have := hb d hd
        omega
  obtain ⟨b, hb⟩ := hb
  have key : ∀ k d, d ∈ l → b - d.length = k → P d := by
    intro k
    induction k using Nat.strongRecOn with
    | _ k ih =>
      intro d hd hk
      refine h d hd fun e he hne hdr => ?_
      have h1 : e.length = d.length + 1 := by
        have := congrArg List.length hdr
        rw [List.length_dropLast] at this
        have : e.length ≠ 0 := fun h0 => hne (List.length_eq_zero_iff.1 h0)
        omega
      have := hb e he
      exact ih (b - e.length) (by omega) e he rfl
  exact fun d hd => key _ d hd rfl

/-- What a file or directory is in is there. -/
theorem FS.Ok.up {s : FS} (ho : s.Ok) {d : Path} : ∀ n (p : Path), p.length = n → p ∈ s.dirs →
    d <+: p → d ∈ s.dirs := by
  intro n
  induction n with
  | zero =>
    intro p hp hm hd
    have := List.length_eq_zero_iff.1 hp
    subst this
    rw [List.prefix_nil] at hd
    subst hd
    exact hm
  | succ n ih =>
    intro p hp hm hd
    rcases prefix_eq_or hd with rfl | hd
    · exact hm
    · refine ih p.dropLast (by rw [List.length_dropLast]; omega) (ho.dir p hm ?_) hd
      intro e
      rw [e] at hp
      cases hp

theorem FS.Ok.prefix_dir {s : FS} (ho : s.Ok) {d p : Path} (h : p ∈ s.dirs) (hd : d <+: p) :
    d ∈ s.dirs := ho.up _ p rfl h hd

theorem FS.Ok.prefix_file {s : FS} (ho : s.Ok) {d p : Path} {c : Nat} (h : (p, c) ∈ s.files)
    (hd : d <+: p) : d = p ∨ d ∈ s.dirs := by
  rcases prefix_eq_or hd with rfl | hd
  · exact Or.inl rfl
  · exact Or.inr (ho.prefix_dir (ho.file p c h).2 hd)

end Verif.Clean
