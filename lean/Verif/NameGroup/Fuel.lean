import Verif.NameGroup.Model
/-! # The parser terminates -/

namespace Verif.NameGroup

/-- Not cut short, and no more tokens than there were. -/
def Fine {α : Type} (len : Nat) (g : α → List Tok) : Except Err α → Prop
  | .ok r => (g r).length ≤ len
  | .error x => x ≠ .fuel

theorem Fine.mono {α : Type} {len len' : Nat} {g : α → List Tok} {x : Except Err α}
    (h : Fine len g x) (hl : len ≤ len') : Fine len' g x := by
  cases x with
  | ok r => exact Nat.le_trans h hl
  | error y => exact h

/-- Not cut short. -/
def Live {α : Type} (x : Except Err α) : Prop := x ≠ .error .fuel

theorem fine_bind {α β : Type} {len : Nat} {g : β → List Tok}
    {x : Except Err α} {k : α → Except Err β} (hx : Live x)
    (hk : ∀ a, x = .ok a → Fine len g (k a)) : Fine len g (x >>= k) := by
  cases x with
  | ok a => exact hk a rfl
  | error y =>
    show y ≠ .fuel
    intro h; exact hx (by rw [h])

theorem live_bind {α β : Type} {x : Except Err α} {k : α → Except Err β}
    (hx : Live x) (hk : ∀ a, x = .ok a → Live (k a)) : Live (x >>= k) := by
  cases x with
  | ok a => exact hk a rfl
  | error y =>
    intro h
    apply hx
    have : (Except.error y : Except Err β) = .error .fuel := h
    cases this; rfl

theorem Fine.live {α : Type} {len : Nat} {g : α → List Tok} {x : Except Err α}
    (h : Fine len g x) : Live x := by
  cases x with
  | ok r => intro h; cases h
  | error y => intro h'; cases h'; exact h rfl

theorem appendName_live (ns p d t v) : Live (appendName ns p d t v) := by
  unfold appendName; split <;> intro h <;> cases h

theorem ok_live {α : Type} (a : α) : Live (.ok a : Except Err α) := by
  intro h; cases h

theorem err_live {α : Type} {x : Err} (h : x ≠ .fuel) :
    Live (.error x : Except Err α) := by
  intro h'; cases h'; exact h rfl

theorem spliceProj_live (c n) : Live (spliceProj c n) := by
  unfold spliceProj
  repeat' split
  all_goals first | exact ok_live _ | exact err_live (by decide)

theorem joinDir_live (e dp d) : Live (joinDir e dp d) := by
  unfold joinDir
  repeat' split
  all_goals first | exact ok_live _ | exact err_live (by decide)

theorem spliceDir_live (e c n) : Live (spliceDir e c n) := by
  unfold spliceDir
  repeat' split
  all_goals first | exact ok_live _ | exact err_live (by decide) | exact joinDir_live _ _ _

theorem spliceType_live (c n) : Live (spliceType c n) := by
  unfold spliceType
  repeat' split
  all_goals first | exact ok_live _ | exact err_live (by decide)

theorem spliceHalf_live (k pr ns) : Live (spliceHalf k pr ns) := by
  unfold spliceHalf
  repeat' split
  all_goals first | exact ok_live _ | exact err_live (by decide)

theorem spliceLoop_live (e c pairn) : ∀ nv ns, Live (spliceLoop e c pairn ns nv) := by
  intro nv
  induction nv with
  | nil => intro ns; exact ok_live _
  | cons x nv ih =>
    intro ns
    obtain ⟨n, pr⟩ := x
    unfold spliceLoop
    exact live_bind (spliceProj_live _ _) fun _ _ =>
      live_bind (spliceDir_live _ _ _) fun _ _ =>
      live_bind (spliceType_live _ _) fun _ _ =>
      live_bind (spliceHalf_live _ _ _) fun _ _ =>
      live_bind (appendName_live _ _ _ _ _) fun _ _ => ih _

theorem splice_live (e c pairn ns nv) : Live (splice e c pairn ns nv) := by
  unfold splice
  split
  · exact ok_live _
  · exact live_bind (spliceLoop_live _ _ _ _ _) fun a _ => ok_live _

theorem catWord_live (ty cc val q) : Live (catWord ty cc val q) := by
  unfold catWord
  split
  · exact ok_live _
  · exact ok_live _
  · split
    · exact ok_live _
    · exact err_live (by decide)

theorem catExp_live (ty cc v) : Live (catExp ty cc v) := by
  unfold catExp
  dsimp only
  repeat' split
  all_goals first | exact ok_live _ | exact err_live (by decide)

theorem wordProject_live (e c val q) : Live (wordProject e c val q) := by
  unfold wordProject
  dsimp only
  repeat' split
  all_goals first | exact ok_live _ | exact err_live (by decide)

theorem toDir_live (e s) : Live (toDir e s) := by
  unfold toDir
  repeat' split
  all_goals first | exact ok_live _ | exact err_live (by decide)

theorem wordPrefix_live (e c p val pos) : Live (wordPrefix e c p val pos) := by
  unfold wordPrefix
  split
  · exact err_live (by decide)
  · split
    · exact ok_live _
    · split
      · exact live_bind (toDir_live _ _) fun a _ =>
          live_bind (joinDir_live _ _ _) fun _ _ => ok_live _
      · exact live_bind (toDir_live _ _) fun a _ =>
          live_bind (joinDir_live _ _ _) fun _ _ => ok_live _

theorem wordAppend_live (e c ns p val pos) : Live (wordAppend e c ns p val pos) := by
  unfold wordAppend
  split
  · exact live_bind (joinDir_live _ _ _) fun _ _ => appendName_live _ _ _ _ _
  · exact appendName_live _ _ _ _ _

theorem appendEmpty_live (c ns) : Live (appendEmpty c ns) := appendName_live _ _ _ _ _

theorem atSep_live (c ns count sep ts) : Live (atSep c ns count sep ts) := by
  unfold atSep pairLhs
  split
  · exact err_live (by decide)
  · apply live_bind
    · split
      · exact live_bind (appendEmpty_live _ _) fun _ _ => ok_live _
      · split
        · exact err_live (by decide)
        · exact ok_live _
    · intro a _
      split
      · exact live_bind (appendEmpty_live _ _) fun _ _ => ok_live _
      · exact ok_live _

theorem addGroup_live (e ns r) : Live (addGroup e ns r) := by
  unfold addGroup
  split
  · exact live_bind (splice_live _ _ _ _ _) fun _ _ => ok_live _
  · exact ok_live _

theorem finish_fine (c ns) (ts : List Tok) :
    Fine ts.length (·.2) (finish c ns ts) := by
  unfold finish
  split
  · exact fine_bind (appendEmpty_live _ _) fun _ _ => Nat.le_refl _
  · exact Nat.le_refl _

theorem promote_live (n) : Live (promote n) := by
  unfold promote
  dsimp only
  repeat' split
  all_goals first | exact ok_live _ | exact err_live (by decide)

/-- What `closing` leaves is shorter. -/
theorem closing_fine {len : Nat} {x : Except Err (List FName × List Tok)}
    (h : Fine (len + 1) (·.2) x) : Fine len (·.2) (x >>= closing) := by
  apply fine_bind h.live
  intro a ha
  subst ha
  unfold closing
  split
  · rename_i ts he
    have h' : a.2.length ≤ len + 1 := h
    rw [he] at h'
    show ts.length ≤ len
    simp only [List.length_cons] at h'
    omega
  · show Err.expectedBrace ≠ .fuel
    decide

theorem replay_fine {len : Nat}
    {p : Ctx → List FName → List Tok → Except Err (List FName × List Tok)}
    {ts : List Tok} (hp : ∀ c r, Fine (len + 1) (·.2) (p c r ts)) :
    ∀ ls r (after : List Tok), (ls ≠ [] ∨ after.length ≤ len) →
      Fine len (·.2) (replay p ts ls r after) := by
  intro ls
  induction ls with
  | nil =>
    intro r after h
    rcases h with h | h
    · exact absurd rfl h
    · exact h
  | cons l ls ih =>
    intro r after _
    unfold replay
    apply fine_bind (promote_live _)
    intro c _
    have h2 := closing_fine (hp c r)
    have h3 : Fine len (·.2) (p c r ts >>= fun x => closing x >>= fun y =>
        replay p ts ls y.1 y.2) := by
      cases hx : p c r ts with
      | error y =>
        rw [hx] at h2
        exact h2
      | ok a =>
        rw [hx] at h2
        show Fine len (·.2) (closing a >>= fun y => replay p ts ls y.1 y.2)
        have h2' : Fine len (·.2) (closing a) := h2
        apply fine_bind h2'.live
        intro b hb
        rw [hb] at h2'
        exact ih _ _ (Or.inr h2')
    exact h3

theorem lcNext_tail {ts : List Tok} (h : lcNext ts = true) :
    ts.tail.length + 1 = ts.length := by
  cases ts with
  | nil => cases h
  | cons a ts => rfl

theorem fuel_ok (e : Env) (ty : Typed) : ∀ f,
    (∀ c cross st (ts : List Tok),
      4 * ts.length + 1 + (if st.cc.isSome then 2 else 0) ≤ f →
      Fine ts.length (·.2) (loop e ty f c cross st ts)) ∧
    (∀ c cross st val q (ts : List Tok), st.cc = none →
      4 * ts.length + 2 ≤ f →
      Fine ts.length (·.2) (word e ty f c cross st val q ts)) ∧
    (∀ c cross ns (ts : List Tok), 4 * ts.length + 2 ≤ f →
      Fine (ts.length - 1) (·.2.2) (trailer e ty f c cross ns ts)) ∧
    (∀ cross r (ts : List Tok), 4 * ts.length + 1 ≤ f →
      Fine ts.length (·.2) (crosses e ty f cross r ts)) := by
  intro f
  induction f with
  | zero =>
    refine ⟨?_, ?_, ?_, ?_⟩
    · intro c cross st ts h; omega
    · intro c cross st val q ts _ h; omega
    · intro c cross ns ts h; omega
    · intro cross r ts h; omega
  | succ f ih =>
    obtain ⟨hl, hw, ht, hx⟩ := ih
    have hgrp : ∀ c (r : List FName) (ts : List Tok), 4 * ts.length + 1 ≤ f →
        Fine (ts.length - 1) (·.2)
          (loop e ty f c false ⟨r, 0, none, true⟩ ts >>= closing) := by
      intro c r ts h
      apply closing_fine
      apply (hl c false ⟨r, 0, none, true⟩ ts (by simpa using h)).mono
      omega
    refine ⟨?_, ?_, ?_, ?_⟩
    · intro c cross st ts h
      unfold loop
      split
      · rename_i cc hcc
        rw [hcc] at h
        simp only [Option.isSome_some, if_true] at h
        split
        · split
          · rename_i _ rest _
            simp only [List.length_cons] at h ⊢
            apply fine_bind (catWord_live _ _ _ _)
            intro a _
            apply (hl _ _ _ rest _).mono (by omega)
            simp only [Option.isSome_some, if_true]; omega
          · rename_i _ rest _
            simp only [List.length_cons] at h ⊢
            apply fine_bind (catExp_live _ _ _)
            intro a _
            apply (hl _ _ _ rest _).mono (by omega)
            simp only [Option.isSome_some, if_true]; omega
          · rename_i hn1 hn2
            rename_i hc _
            exfalso
            cases ts with
            | nil => cases hc
            | cons a rest =>
              cases a with
              | word s v q => exact hn1 _ _ _ _ rfl
              | exp s v => exact hn2 _ _ _ rfl
              | lc s => cases hc
              | rc => cases hc
              | «at» s => cases hc
              | eos => cases hc
        · split
          · split
            · split
              · exact hw _ _ _ _ _ ts rfl (by omega)
              · show Err.concat ≠ .fuel
                decide
            · apply hl
              show _ + (if false then 2 else 0) ≤ f
              simp only [Bool.false_eq_true, if_false]
              omega
          · exact hw _ _ _ _ _ ts rfl (by omega)
      · rename_i hcc
        rw [hcc] at h
        simp only [Option.isSome_none, Bool.false_eq_true, if_false] at h
        split
        · rename_i rest
          simp only [List.length_cons] at h ⊢
          split
          · apply fine_bind (catWord_live _ _ _ _)
            intro a _
            apply (hl _ _ _ rest _).mono (by omega)
            simp only [Option.isSome_some, if_true]; omega
          · exact (hw _ _ _ _ _ rest hcc (by omega)).mono (by omega)
        · rename_i rest
          simp only [List.length_cons] at h ⊢
          split
          · apply fine_bind (catExp_live _ _ _)
            intro a _
            apply (hl _ _ _ rest _).mono (by omega)
            simp only [Option.isSome_some, if_true]; omega
          · split
            · apply (hl _ _ _ rest _).mono (by omega)
              simp only [hcc, Option.isSome_none, Bool.false_eq_true, if_false]; omega
            · split
              · apply (hl _ _ _ rest _).mono (by omega)
                simp only [hcc, Option.isSome_none, Bool.false_eq_true, if_false]; omega
              · apply fine_bind (splice_live _ _ _ _ _)
                intro a _
                apply (hl _ _ _ rest _).mono (by omega)
                simp only [hcc, Option.isSome_none, Bool.false_eq_true, if_false]; omega
        · rename_i rest
          simp only [List.length_cons] at h ⊢
          have h1 := ht c cross st.ns rest (by omega)
          apply fine_bind h1.live
          intro a ha
          rw [ha] at h1
          have h1' : a.2.2.length ≤ rest.length - 1 := h1
          apply (hl _ _ _ a.2.2 _).mono (by omega)
          simp only [hcc, Option.isSome_none, Bool.false_eq_true, if_false]; omega
        · rename_i rest
          simp only [List.length_cons] at h ⊢
          apply fine_bind (atSep_live _ _ _ _ _)
          intro a _
          apply (hl _ _ _ rest _).mono (by omega)
          simp only [hcc, Option.isSome_none, Bool.false_eq_true, if_false]; omega
        · split
          · split
            · exact fine_bind (appendEmpty_live _ _) fun a _ => finish_fine _ _ _
            · show Err.expectedName ≠ .fuel
              decide
          · exact finish_fine _ _ _
    · intro c cross st val q ts hcc h
      unfold word
      apply fine_bind (wordProject_live _ _ _ _)
      intro a _
      obtain ⟨p, v, pos⟩ := a
      dsimp only
      split
      · rename_i hlc
        have h0 := lcNext_tail hlc
        apply fine_bind (wordPrefix_live _ _ _ _ _)
        intro c1 _
        have h1 := ht c1 cross st.ns ts.tail (by omega)
        apply fine_bind h1.live
        intro a ha
        rw [ha] at h1
        have h1' : a.2.2.length ≤ ts.tail.length - 1 := h1
        apply (hl _ _ _ a.2.2 _).mono (by omega)
        simp only [hcc, Option.isSome_none, Bool.false_eq_true, if_false]; omega
      · apply fine_bind (wordAppend_live _ _ _ _ _ _)
        intro a _
        apply hl
        simp only [hcc, Option.isSome_none, Bool.false_eq_true, if_false]; omega
    · intro c cross ns ts h
      unfold trailer
      have h1 := hgrp c [] ts (by omega)
      have h2 : ∀ (k : List FName × List Tok → Except Err (List FName × Nat × List Tok)),
          (∀ y : List FName × List Tok, y.2.length ≤ ts.length - 1 → Fine (ts.length - 1) (·.2.2) (k y)) →
          Fine (ts.length - 1) (·.2.2)
            (loop e ty f c false ⟨[], 0, none, true⟩ ts >>= fun x => closing x >>= k) := by
        intro k hk
        cases hxx : loop e ty f c false ⟨[], 0, none, true⟩ ts with
        | error y => rw [hxx] at h1; exact h1
        | ok a =>
          rw [hxx] at h1
          have h1' : Fine (ts.length - 1) (·.2) (closing a) := h1
          show Fine _ _ (closing a >>= k)
          apply fine_bind h1'.live
          intro b hb
          rw [hb] at h1'
          exact hk b h1'
      apply h2
      intro y hy
      obtain ⟨r, ts'⟩ := y
      have hy' : ts'.length ≤ ts.length - 1 := hy
      have h3 := hx cross r ts' (by omega)
      apply fine_bind h3.live
      intro z hz
      rw [hz] at h3
      have h3' : z.2.length ≤ ts'.length := h3
      apply fine_bind (addGroup_live _ _ _)
      · intro w _
        show z.2.length ≤ ts.length - 1
        omega
    · intro cross r ts h
      unfold crosses
      split
      · rename_i hc
        have h0 := lcNext_tail hc.2
        dsimp only
        split
        · have h1 := hgrp Ctx.none [] ts.tail (by omega)
          cases hxx : loop e ty f Ctx.none false ⟨[], 0, none, true⟩ ts.tail with
          | error y => rw [hxx] at h1; exact h1
          | ok a =>
            rw [hxx] at h1
            have h1' : Fine (ts.tail.length - 1) (·.2) (closing a) := h1
            show Fine _ _ (closing a >>= fun y => crosses e ty f cross [] y.2)
            apply fine_bind h1'.live
            intro b hb
            rw [hb] at h1'
            have h1'' : b.2.length ≤ ts.tail.length - 1 := h1'
            exact (hx cross [] b.2 (by omega)).mono (by omega)
        · rename_i hr
          have h1 := replay_fine (len := ts.tail.length)
            (p := fun c r ts => loop e ty f c false ⟨r, 0, none, true⟩ ts) (ts := ts.tail)
            (fun c r => (hl c false ⟨r, 0, none, true⟩ ts.tail
              (by simp only [Option.isSome_none, Bool.false_eq_true, if_false]; omega)).mono (by omega))
            r [] ts.tail (Or.inl (by intro hr'; rw [hr'] at hr; exact hr rfl))
          apply fine_bind h1.live
          intro b hb
          rw [hb] at h1
          have h1' : b.2.length ≤ ts.tail.length := h1
          exact (hx cross b.1 b.2 (by omega)).mono (by omega)
      · exact Nat.le_refl _

/-- More recursion does not change a result that was not cut short. -/
theorem parse_live (e : Env) (ty : Typed) (ts : List Tok) : Live (parse e ty ts) := by
  unfold parse
  exact ((fuel_ok e ty _).1 _ _ _ _ (by simp)).live

end Verif.NameGroup
