import Verif.PrefixMap.Model

namespace Verif.PrefixMap

/-- The values for a key, in order. -/
def view (m : Map) (p : Dir) : List Val := (m.filter fun e => decide (e.1 = p)).map Prod.snd

/-- Insertion by priority. -/
def insVal (d : Dir) (n : Nat) : List Val → List Val
  | [] => [⟨d, n⟩]
  | v :: vs => if v.prio > n then ⟨d, n⟩ :: v :: vs else v :: insVal d n vs

/-- The other kind of it. -/
def setVal (d : Dir) (n : Nat) : List Val → List Val
  | [] => [⟨d, n⟩]
  | v :: vs => (if v.prio ≤ n then v else ⟨d, n⟩) :: vs

theorem better_eq (v : Val) (d : Dir) (n : Nat) :
    better v d n = if v.prio ≤ n then v else ⟨d, n⟩ := by
  unfold better; grind

theorem view_cons (k : Dir) (v : Val) (m : Map) (p : Dir) :
    view ((k, v) :: m) p = if k = p then v :: view m p else view m p := by
  unfold view; rw [List.filter_cons]; split <;> simp_all

theorem view_insPrio (d : Dir) (n : Nat) (m : Map) (p : Dir) :
    view (insPrio d n m) p = if p = [] then insVal d n (view m p) else view m p := by
  induction m with
  | nil => simp only [insPrio, view_cons]; by_cases h : p = [] <;> simp [h, view, insVal, Ne.symm]
  | cons e m ih =>
    obtain ⟨k, v⟩ := e
    simp only [insPrio]
    split
    · rename_i h
      obtain ⟨rfl, hv⟩ := h
      simp only [view_cons]
      by_cases hp : p = []
      · simp [hp, insVal, hv]
      · simp [hp, Ne.symm hp]
    · rename_i h
      simp only [view_cons, ih]
      by_cases hp : p = []
      · by_cases hk : k = []
        · have : ¬ v.prio > n := fun hv => h ⟨hk, hv⟩
          simp [hp, hk, insVal, this]
        · simp [hp, hk]
      · simp [hp]

theorem view_setKey (q d : Dir) (n : Nat) (m : Map) (p : Dir) :
    view (setKey q d n m) p = if p = q then setVal d n (view m p) else view m p := by
  induction m with
  | nil =>
    simp only [setKey, view_cons]
    by_cases h : p = q
    · simp [h, view, setVal]
    · simp [h, Ne.symm h]
  | cons e m ih =>
    obtain ⟨k, v⟩ := e
    simp only [setKey]
    split
    · rename_i h; subst h
      simp only [view_cons, better_eq]
      by_cases hp : p = k
      · subst hp; simp [setVal]
      · simp [hp, Ne.symm hp]
    · rename_i h
      simp only [view_cons, ih]
      by_cases hp : p = q
      · subst hp; simp [h]
      · simp [hp]

/-- What entering does to the values of a key. -/
def ins (p d : Dir) (n : Nat) (vs : List Val) : List Val :=
  if p = [] then insVal d n vs else setVal d n vs

theorem view_enter (q d : Dir) (n : Nat) (m : Map) (p : Dir) :
    view (enter q d n m) p = if p = q then ins p d n (view m p) else view m p := by
  unfold enter
  split
  · rename_i h; subst h; rw [view_insPrio]; by_cases hp : p = [] <;> simp [hp, ins]
  · rename_i h; rw [view_setKey]
    by_cases hp : p = q
    · subst hp; simp [ins, h]
    · simp [hp]

theorem isPrefix_dropLast {p q : Dir} (h : p <+: q) (hn : p ≠ q) : p <+: q.dropLast := by
  obtain ⟨r, rfl⟩ := h
  rcases List.eq_nil_or_concat r with rfl | ⟨r', x, rfl⟩
  · simp at hn
  · rw [List.concat_eq_append, ← List.append_assoc, List.dropLast_concat]
    exact ⟨r', rfl⟩

theorem dropLast_isPrefix (q : Dir) : q.dropLast <+: q := List.dropLast_prefix q

theorem view_enterAll (d : Dir) (p : Dir) : ∀ (k : Nat) (q : Dir) (n : Nat) (m : Map), q.length = k →
    view (enterAll d k q n m) p =
      if p <+: q then ins p d (n + (q.length - p.length)) (view m p) else view m p := by
  intro k
  induction k with
  | zero =>
    intro q n m hq
    have : q = [] := List.length_eq_zero_iff.mp hq
    subst this
    rw [enterAll, view_enter]
    by_cases hp : p = []
    · simp [hp]
    · simp [hp]
  | succ k ih =>
    intro q n m hq
    rw [enterAll, ih _ _ _ (by simp [hq]), view_enter]
    by_cases hp : p = q
    · subst hp
      have h1 : ¬ p <+: p.dropLast := by
        intro h; have := h.length_le; simp at this; omega
      simp [h1]
    · by_cases hpre : p <+: q
      · have h2 := isPrefix_dropLast hpre hp
        have h3 := h2.length_le
        rw [if_pos h2, if_neg hp, if_pos hpre]
        simp only [List.length_dropLast] at h3 ⊢
        congr 1; omega
      · have h2 : ¬ p <+: q.dropLast := fun h => hpre (h.trans (dropLast_isPrefix q))
        rw [if_neg h2, if_neg hp, if_neg hpre]

/-- Whether an include directory is for the prefix, and how far the target is. -/
def gives (o : Opt) (p : Dir) : Option Nat :=
  if o.root.isPrefixOf o.dir ∧ p <+: prefixOf o.target o.dir then
    some ((prefixOf o.target o.dir).length - p.length)
  else none

/-- What an include directory does to the values of a key. -/
def absorb (p : Dir) (vs : List Val) (o : Opt) : List Val :=
  match gives o p with
  | some n => ins p o.dir n vs
  | none => vs

theorem view_append (m : Map) (o : Opt) (p : Dir) :
    view (appendPrefix m o) p = absorb p (view m p) o := by
  unfold appendPrefix absorb gives
  by_cases h : o.root.isPrefixOf o.dir = true
  · rw [if_pos h, view_enterAll _ _ _ _ _ _ rfl]
    by_cases hp : p <+: prefixOf o.target o.dir
    · simp [h, hp]
    · simp [hp]
  · rw [if_neg h, if_neg (fun hc => h hc.1)]

theorem view_build (opts : List Opt) (p : Dir) :
    view (build opts) p = opts.foldl (absorb p) [] := by
  unfold build
  have : ∀ (m : Map), view (opts.foldl appendPrefix m) p = opts.foldl (absorb p) (view m p) := by
    induction opts with
    | nil => intro m; rfl
    | cons o opts ih => intro m; rw [List.foldl_cons, ih, view_append, List.foldl_cons]
  exact this []

theorem gives_iff (o : Opt) (p : Dir) (n : Nat) : gives o p = some n ↔ Leads o p n := by
  unfold gives
  constructor
  · intro h
    split at h
    · rename_i hc
      obtain ⟨h1, h2⟩ := hc
      have h1' := List.isPrefixOf_iff_prefix.mp h1
      cases h
      unfold prefixOf at h2 ⊢
      split at h2
      · rename_i hd
        rw [if_pos hd]
        obtain ⟨u, hu⟩ := List.isPrefixOf_iff_prefix.mp hd
        obtain ⟨r, hr⟩ := h2
        rw [← hu, List.drop_left] at hr ⊢
        have hl : u.length - p.length = r.length := by rw [← hr]; simp
        rw [hl]
        exact .above h1' (by rw [← hu, ← hr, List.append_assoc])
      · rename_i hd
        rw [if_neg hd]
        have hp : p = [] := by simpa using h2
        have : ([] : Dir).length - p.length = 0 := by simp
        rw [this]
        exact .elsewhere h1' (fun h => hd (List.isPrefixOf_iff_prefix.mpr h)) hp
    · cases h
  · intro h
    cases h with
    | @above rest h1 h2 =>
      have hd : o.dir.isPrefixOf o.target = true :=
        List.isPrefixOf_iff_prefix.mpr ⟨p ++ rest, by rw [h2, List.append_assoc]⟩
      have hp : prefixOf o.target o.dir = p ++ rest := by
        unfold prefixOf; rw [if_pos hd, h2, List.append_assoc, List.drop_left]
      rw [if_pos ⟨List.isPrefixOf_iff_prefix.mpr h1, by rw [hp]; exact ⟨rest, rfl⟩⟩, hp]
      simp
    | elsewhere h1 h2 h3 =>
      have hp : prefixOf o.target o.dir = [] := by
        unfold prefixOf; rw [if_neg (fun h => h2 (List.isPrefixOf_iff_prefix.mp h))]
      rw [if_pos ⟨List.isPrefixOf_iff_prefix.mpr h1, by rw [hp, h3]; exact List.prefix_refl _⟩, hp]
      simp

/-- The best so far of those with `P`. -/
def pick (P : Dir → Bool) (p : Dir) (acc : Option Val) (o : Opt) : Option Val :=
  match gives o p with
  | none => acc
  | some n =>
    if P o.dir then
      match acc with
      | none => some ⟨o.dir, n⟩
      | some v => if v.prio ≤ n then some v else some ⟨o.dir, n⟩
    else acc

theorem pick_closest (P : Dir → Bool) (p : Dir) (opts : List Opt) :
    (∀ v, opts.foldl (pick P p) none = some v →
      Closest (fun D => P D = true) opts p v.dir v.prio) ∧
    (opts.foldl (pick P p) none = none → ∀ o ∈ opts, ∀ n, Leads o p n → P o.dir = false) := by
  induction h : opts.length generalizing opts with
  | zero =>
    have : opts = [] := List.length_eq_zero_iff.mp h
    subst this; simp
  | succ k ih =>
    rcases List.eq_nil_or_concat opts with rfl | ⟨init, o, rfl⟩
    · simp at h
    rw [List.concat_eq_append] at h ⊢
    obtain ⟨ih1, ih2⟩ := ih init (by simpa using h)
    rw [List.foldl_append, List.foldl_cons, List.foldl_nil]
    generalize hacc : init.foldl (pick P p) none = acc at *
    unfold pick
    -- One more that does not count
    have hold : (∀ n, Leads o p n → P o.dir = true → ∀ v, acc = some v → v.prio ≤ n) →
        ∀ v, acc = some v → Closest (fun D => P D = true) (init ++ [o]) p v.dir v.prio := by
      intro hn v hv
      obtain ⟨pre, o', post, h1, h2, h3, h4, h5, h6⟩ := ih1 v hv
      refine ⟨pre, o', post ++ [o], by rw [h1]; simp, h2, h3, h4, h5, ?_⟩
      intro x hx n' hl hP
      rcases List.mem_append.mp hx with hx | hx
      · exact h6 x hx n' hl hP
      · rw [List.mem_singleton.mp hx] at hl hP; exact hn n' hl hP v hv
    cases hg : gives o p with
    | none =>
      have hno : ∀ n, ¬ Leads o p n := by
        intro n hl; rw [(gives_iff o p n).mpr hl] at hg; cases hg
      refine ⟨hold (fun n hl => absurd hl (hno n)), ?_⟩
      intro hn x hx n hl
      rcases List.mem_append.mp hx with hx | hx
      · exact ih2 hn x hx n hl
      · rw [List.mem_singleton.mp hx] at hl; exact absurd hl (hno n)
    | some n =>
      have hln := (gives_iff o p n).mp hg
      have huniq : ∀ n', Leads o p n' → n' = n := by
        intro n' hl; have := (gives_iff o p n').mpr hl; rw [hg] at this; cases this; rfl
      dsimp only
      split
      · rename_i hP
        cases acc with
        | none =>
          refine ⟨?_, by intro h; cases h⟩
          intro v hv; cases hv
          refine ⟨init, o, [], rfl, rfl, hP, hln, ?_, by simp⟩
          intro o' ho' n' hl hP'
          rw [ih2 rfl o' ho' n' hl] at hP'; cases hP'
        | some v =>
          dsimp only
          split
          · rename_i hle
            refine ⟨hold ?_, by intro h; cases h⟩
            intro n' hl _ v' hv'; cases hv'; rw [huniq n' hl]; exact hle
          · rename_i hle
            refine ⟨?_, by intro h; cases h⟩
            intro v' hv'; cases hv'
            refine ⟨init, o, [], rfl, rfl, hP, hln, ?_, by simp⟩
            intro o' ho' n' hl hP'
            obtain ⟨pre, o'', post, h1, h2, h3, h4, h5, h6⟩ := ih1 v rfl
            rw [h1] at ho'
            show n < n'
            rcases List.mem_append.mp ho' with ho' | ho'
            · have := h5 o' ho' n' hl hP'; omega
            · rcases List.mem_cons.mp ho' with rfl | ho'
              · have h7 := (gives_iff _ _ _).mpr h4
                have h8 := (gives_iff _ _ _).mpr hl
                rw [h7] at h8; cases h8; omega
              · have := h6 o' ho' n' hl hP'; omega
      · rename_i hP
        have hP : P o.dir = false := by simpa using hP
        refine ⟨hold (fun n' _ hP' => by rw [hP] at hP'; cases hP'), ?_⟩
        intro hn x hx n' hl
        rcases List.mem_append.mp hx with hx | hx
        · exact ih2 hn x hx n' hl
        · rw [List.mem_singleton.mp hx]; exact hP

/-- There is one closest. -/
theorem closest_unique {P : Dir → Prop} {opts : List Opt} {p D D' n n'}
    (h : Closest P opts p D n) (h' : Closest P opts p D' n') : D = D' := by
  obtain ⟨pre, o, post, h1, h2, h3, h4, h5, h6⟩ := h
  obtain ⟨pre', o', post', h1', h2', h3', h4', h5', h6'⟩ := h'
  rw [h1] at h1'
  rw [List.append_eq_append_iff] at h1'
  rcases h1' with ⟨a, ha, hb⟩ | ⟨a, ha, hb⟩
  · rcases a with _ | ⟨x, a⟩
    · simp at hb; rw [← h2, ← h2', hb.1]
    · simp at hb
      obtain ⟨rfl, hb⟩ := hb
      have k1 := h5' o (by rw [ha]; simp) n h4 (h2 ▸ h3)
      have k2 := h6 o' (by rw [hb]; simp) n' h4' (h2' ▸ h3')
      omega
  · rcases a with _ | ⟨x, a⟩
    · simp at hb; rw [← h2, ← h2', hb.1]
    · simp at hb
      obtain ⟨rfl, hb⟩ := hb
      have k1 := h5 o' (by rw [ha]; simp) n' h4' (h2' ▸ h3')
      have k2 := h6' o (by rw [hb]; simp) n h4 (h2 ▸ h3)
      omega

/-! Values with a prefix -/

theorem absorb_single (p : Dir) (hp : p ≠ []) (opts : List Opt) :
    opts.foldl (absorb p) [] = (opts.foldl (pick (fun _ => true) p) none).toList := by
  have : ∀ acc : Option Val, opts.foldl (absorb p) acc.toList =
      (opts.foldl (pick (fun _ => true) p) acc).toList := by
    induction opts with
    | nil => intro acc; rfl
    | cons o opts ih =>
      intro acc
      rw [List.foldl_cons, List.foldl_cons, ← ih]
      congr 1
      unfold absorb pick ins
      cases gives o p with
      | none => rfl
      | some n =>
        cases acc with
        | none => simp [hp, setVal]
        | some v => simp only [Option.toList, hp, setVal, if_false, if_true]; split <;> rfl
  exact this none

/-! Prefixless values -/

theorem mem_insVal {d : Dir} {n : Nat} {vs : List Val} {x : Val} (h : x ∈ insVal d n vs) :
    x = ⟨d, n⟩ ∨ x ∈ vs := by
  induction vs with
  | nil => simp [insVal] at h; exact .inl h
  | cons v vs ih =>
    simp only [insVal] at h; split at h
    · simpa using h
    · rcases List.mem_cons.mp h with h | h
      · simp [h]
      · rcases ih h with h | h <;> simp [h]

theorem insVal_sorted {d : Dir} {n : Nat} {vs : List Val}
    (h : vs.Pairwise fun a b => a.prio ≤ b.prio) :
    (insVal d n vs).Pairwise fun a b => a.prio ≤ b.prio := by
  induction vs with
  | nil => simp [insVal]
  | cons v vs ih =>
    have h' := List.pairwise_cons.mp h
    simp only [insVal]; split
    · rename_i hv
      refine List.pairwise_cons.mpr ⟨?_, h⟩
      intro a ha
      show n ≤ a.prio
      rcases List.mem_cons.mp ha with rfl | ha
      · omega
      · have := h'.1 a ha; omega
    · rename_i hv
      refine List.pairwise_cons.mpr ⟨?_, ih h'.2⟩
      intro a ha
      rcases mem_insVal ha with rfl | ha
      · show v.prio ≤ n; omega
      · exact h'.1 a ha

theorem find_insVal (P : Dir → Bool) {d : Dir} {n : Nat} {vs : List Val}
    (h : vs.Pairwise fun a b => a.prio ≤ b.prio) :
    (insVal d n vs).find? (fun v => P v.dir) =
      if P d then
        match vs.find? (fun v => P v.dir) with
        | none => some ⟨d, n⟩
        | some v => if v.prio ≤ n then some v else some ⟨d, n⟩
      else vs.find? (fun v => P v.dir) := by
  induction vs with
  | nil => simp [insVal, List.find?_cons]; cases P d <;> simp
  | cons v vs ih =>
    have h' := List.pairwise_cons.mp h
    simp only [insVal]; split
    · rename_i hv
      rw [List.find?_cons]
      cases hd : P d with
      | true =>
        simp only [if_true]
        cases hf : (v :: vs).find? (fun v => P v.dir) with
        | none => rfl
        | some w =>
          have hw := List.mem_of_find?_eq_some hf
          have : n < w.prio := by
            rcases List.mem_cons.mp hw with rfl | hw
            · omega
            · have := h'.1 w hw; omega
          simp; omega
      | false => simp
    · rename_i hv
      rw [List.find?_cons, List.find?_cons]
      cases hpv : P v.dir with
      | true =>
        have : v.prio ≤ n := by omega
        simp [this]
      | false => simp only; exact ih h'.2

theorem find_prefixless (P : Dir → Bool) (opts : List Opt) :
    (opts.foldl (absorb []) []).find? (fun v => P v.dir) = opts.foldl (pick P []) none := by
  have : ∀ vs : List Val, (vs.Pairwise fun a b => a.prio ≤ b.prio) →
      (opts.foldl (absorb []) vs).find? (fun v => P v.dir) =
        opts.foldl (pick P []) (vs.find? fun v => P v.dir) := by
    induction opts with
    | nil => intro vs _; rfl
    | cons o opts ih =>
      intro vs hvs
      rw [List.foldl_cons, List.foldl_cons]
      have hs : (absorb [] vs o).Pairwise fun a b => a.prio ≤ b.prio := by
        unfold absorb ins
        cases gives o [] with
        | none => exact hvs
        | some n => simp only [if_true]; exact insVal_sorted hvs
      rw [ih _ hs]
      congr 1
      unfold absorb pick ins
      cases gives o [] with
      | none => rfl
      | some n => simp only [if_true]; rw [find_insVal P hvs]
  exact this [] List.Pairwise.nil

end Verif.PrefixMap
