import Verif.BuildSpec.Model
/-!
# Build specifications: the parser
-/

namespace Verif.BuildSpec

variable (join : String → String → String)

/-- As tokens. -/
def Written.tokens : Written → List Tok
  | .nil => []
  | .names ns rest => .names ns :: rest.tokens
  | .apply ns body params omitted rest =>
    .names ns :: .lparen :: (body.tokens ++
      (params.flatMap (fun v => [.comma, .names v]) ++ (if omitted then [.comma] else []) ++
        .rparen :: rest.tokens))

theorem isIdent_ne {s : String} (h : isIdent s = true) : s ≠ "" := by
  rintro rfl
  revert h
  decide

theorem opname_isOp (n : Name) : opname n = isOp n := by
  unfold opname isOp
  by_cases h1 : n.pair = none
  · by_cases h2 : n.proj = none ∧ n.type = "" ∧ n.dir = ""
    · by_cases h3 : n.value = ""
      · rw [if_pos (Or.inr (Or.inr h3)), h3]
        have : isIdent "" = false := by decide
        simp [this]
      · rw [if_neg (by rintro (h | h | h) <;> simp_all)]
        simp only [h1, h2, true_and, isIdent]
        cases n.value.toList with
        | nil => simp
        | cons c cs =>
          have hc : ∀ c : Char, (!(decide (c ≠ '-') && !c.isAlphanum)) =
              decide (c = '-' ∨ c.isAlphanum = true) := by
            intro c
            by_cases hd : c = '-' <;> cases c.isAlphanum <;> simp [hd]
          have ha : (!(decide (c ≠ '-') && !c.isAlpha)) = decide (c = '-' ∨ c.isAlpha = true) := by
            by_cases hd : c = '-' <;> cases c.isAlpha <;> simp [hd]
          simp only [hc, ha]
          by_cases hd : c = '-' ∨ c.isAlpha = true
          · rw [Bool.eq_iff_iff]
            simp [hd]
          · simp [hd]
    · rw [if_pos (Or.inr (Or.inl h2))]
      simp
      intro _ a b c
      exact absurd ⟨a, c, b⟩ h2
  · rw [if_pos (Or.inl h1)]
    simp [h1]

/-! ## Chunks -/

/-- Operations and meta-operations are named. -/
def Good (cs : List Chunk) : Prop :=
  (∀ o, .op o ∈ cs → o.name ≠ "") ∧ ∀ m, .meta m ∈ cs → m.name ≠ ""

def NoMeta (cs : List Chunk) : Prop := ∀ c ∈ cs, c.isMeta = false

theorem good_nil : Good [] := ⟨fun _ h => by (cases h), fun _ h => by (cases h)⟩

theorem good_append {a b : List Chunk} : Good (a ++ b) ↔ Good a ∧ Good b := by
  unfold Good
  constructor
  · rintro ⟨h1, h2⟩
    exact ⟨⟨fun o h => h1 o (List.mem_append_left _ h), fun o h => h2 o (List.mem_append_left _ h)⟩,
      ⟨fun o h => h1 o (List.mem_append_right _ h), fun o h => h2 o (List.mem_append_right _ h)⟩⟩
  · rintro ⟨⟨h1, h2⟩, h3, h4⟩
    refine ⟨fun o h => ?_, fun o h => ?_⟩
    · rcases List.mem_append.mp h with h | h
      · exact h1 o h
      · exact h3 o h
    · rcases List.mem_append.mp h with h | h
      · exact h2 o h
      · exact h4 o h

theorem noMeta_append {a b : List Chunk} : NoMeta (a ++ b) ↔ NoMeta a ∧ NoMeta b := by
  unfold NoMeta
  constructor
  · intro h
    exact ⟨fun c hc => h c (List.mem_append_left _ hc), fun c hc => h c (List.mem_append_right _ hc)⟩
  · rintro ⟨h1, h2⟩ c hc
    rcases List.mem_append.mp hc with h | h
    · exact h1 c h
    · exact h2 c h

theorem updLast_append {α : Type} (f : α → α) (xs : List α) (a : α) :
    updLast f (xs ++ [a]) = xs ++ [f a] := by
  induction xs with
  | nil => rfl
  | cons x xs ih =>
    cases xs with
    | nil => rfl
    | cons y ys =>
      rw [List.cons_append, List.cons_append, updLast]
      exact congrArg (x :: ·) ih

theorem addTarget_append (os : List OpSpec) (o : OpSpec) (t : Target) :
    addTarget (os ++ [o]) t =
      if o.name ≠ "" then os ++ [o, ⟨"", [], [t]⟩]
      else os ++ [{ o with targets := o.targets ++ [t] }] := by
  unfold addTarget
  simp only [List.getLast?_concat]
  split
  · rw [updLast_append]
    simp
  · rw [updLast_append]

theorem addTarget_cons (o : OpSpec) (os : List OpSpec) (t : Target)
    (h : os ≠ [] ∨ o.name ≠ "") : addTarget (o :: os) t = o :: addTarget os t := by
  rcases List.eq_nil_or_concat os with rfl | ⟨init, last, rfl⟩
  · have ho : o.name ≠ "" := by
      rcases h with h | h
      · exact absurd rfl h
      · exact h
    have := addTarget_append [] o t
    rw [if_pos ho] at this
    exact this
  · rw [List.concat_eq_append] at h ⊢
    have h1 := addTarget_append (o :: init) last t
    have h2 := addTarget_append init last t
    rw [List.cons_append] at h1
    rw [h1, h2]
    split <;> rfl

theorem ops_tt {u : Target} {cs : List Chunk} {o : OpSpec} {os : List OpSpec} {t : Target}
    (h : ops (.target u :: cs) = o :: os) :
    ops (.target t :: .target u :: cs) = { o with targets := t :: o.targets } :: os := by
  rw [ops]
  simp only [h]

theorem ops_target_head (t : Target) (cs : List Chunk) :
    ∃ ts os, ops (.target t :: cs) = ⟨"", [], ts⟩ :: os := by
  induction cs generalizing t with
  | nil => exact ⟨_, _, rfl⟩
  | cons c cs ih =>
    cases c with
    | «meta» m => exact ⟨[t], ops cs, rfl⟩
    | op o => exact ⟨[t], ops (.op o :: cs), rfl⟩
    | target u =>
      obtain ⟨ts, os, h⟩ := ih u
      refine ⟨t :: ts, os, ?_⟩
      rw [ops_tt h]

theorem ops_op_snoc (cs : List Chunk) (o : OpSpec) : ops (cs ++ [.op o]) = ops cs ++ [o] := by
  induction cs with
  | nil => rfl
  | cons c cs ih =>
    cases c with
    | «meta» m => rw [List.cons_append, ops, ops, ih]
    | op p => rw [List.cons_append, ops, ops, ih]; rfl
    | target t =>
      cases cs with
      | nil => rfl
      | cons d cs =>
        cases d with
        | «meta» m => simp only [List.cons_append, ops] at ih ⊢; rw [ih]
        | op p => simp only [List.cons_append, ops] at ih ⊢; rw [ih]
        | target u =>
          obtain ⟨ts, os, h⟩ := ops_target_head u cs
          have h2 : ops (.target u :: (cs ++ [.op o])) = ⟨"", [], ts⟩ :: (os ++ [o]) := by
            rw [← List.cons_append, ih, h]; rfl
          rw [List.cons_append, List.cons_append, ops_tt h2, ops_tt h]
          rfl

theorem ops_target_snoc (cs : List Chunk) (hg : Good cs) (hn : NoMeta cs) (t : Target) :
    ops (cs ++ [.target t]) = addTarget (ops cs) t := by
  induction cs with
  | nil => rfl
  | cons c cs ih =>
    have hg' : Good cs := (good_append (a := [c])).mp hg |>.2
    have hn' : NoMeta cs := (noMeta_append (a := [c])).mp hn |>.2
    have ih := ih hg' hn'
    cases c with
    | «meta» m => have := hn (.meta m) (by simp); cases this
    | op o =>
      rw [List.cons_append, ops, ops, ih]
      have := hg.1 o (by simp)
      rw [addTarget_cons _ _ _ (Or.inr this)]
    | target u =>
      cases cs with
      | nil => rfl
      | cons d cs =>
        cases d with
        | «meta» m => have := hn (.meta m) (by simp); cases this
        | op p =>
          simp only [List.cons_append, ops] at ih ⊢
          rw [ih, ← addTarget_cons _ _ _ (Or.inl (by simp))]
        | target v =>
          obtain ⟨ts, os, h⟩ := ops_target_head v cs
          have h2 : ops (.target v :: (cs ++ [.target t])) = addTarget (⟨"", [], ts⟩ :: os) t := by
            rw [← List.cons_append, ih, h]
          rw [List.cons_append, List.cons_append, ops_tt h]
          by_cases hos : os = []
          · subst hos
            rw [ops_tt (o := ⟨"", [], ts ++ [t]⟩) (os := []) h2]
            rfl
          · rw [addTarget_cons _ _ _ (Or.inl hos)] at h2
            rw [addTarget_cons _ _ _ (Or.inl hos), ops_tt h2]

theorem leading_noMeta {cs : List Chunk} (h : NoMeta cs) : leading cs = (cs, []) := by
  induction cs with
  | nil => rfl
  | cons c cs ih =>
    have ih := ih ((noMeta_append (a := [c])).mp h |>.2)
    cases c with
    | «meta» m => have := h (.meta m) (by simp); cases this
    | op o => simp only [leading, ih]
    | target t => simp only [leading, ih]

theorem leading_append_meta (cs : List Chunk) (m : MetaSpec) (ds : List Chunk) :
    leading (cs ++ .meta m :: ds) = ((leading cs).1, (leading cs).2 ++ .meta m :: ds) := by
  induction cs with
  | nil => rfl
  | cons c cs ih =>
    cases c with
    | «meta» n => rfl
    | op o => simp only [List.cons_append, leading, ih]
    | target t => simp only [List.cons_append, leading, ih]

/-- The default meta-operation for these, if any. -/
def dfltMeta (b : List Chunk) : List MetaSpec := if b = [] then [] else [⟨"", [], ops b⟩]

theorem metas_nil : metas [] = [] := by rw [metas]

theorem metas_meta (m : MetaSpec) (cs : List Chunk) : metas (.meta m :: cs) = m :: metas cs := by
  rw [metas]

theorem metas_other {c : Chunk} (h : c.isMeta = false) (cs : List Chunk) :
    metas (c :: cs) = ⟨"", [], ops (c :: (leading cs).1)⟩ :: metas (leading cs).2 := by
  rw [metas]
  rintro m rfl
  cases h

theorem metas_noMeta {cs : List Chunk} (h : NoMeta cs) : metas cs = dfltMeta cs := by
  cases cs with
  | nil => rw [metas_nil]; rfl
  | cons c cs =>
    rw [metas_other (h c (by simp)), leading_noMeta ((noMeta_append (a := [c])).mp h |>.2), metas_nil]
    rfl

theorem metas_append_meta (cs : List Chunk) (m : MetaSpec) (ds : List Chunk) :
    metas (cs ++ .meta m :: ds) = metas cs ++ m :: metas ds := by
  induction hn : cs.length using Nat.strongRecOn generalizing cs with
  | ind n ih =>
    cases cs with
    | nil => rw [List.nil_append, metas_meta, metas_nil]; rfl
    | cons c cs =>
      cases hc : c.isMeta with
      | true =>
        cases c with
        | «meta» k =>
          rw [List.cons_append, metas_meta, metas_meta, ih cs.length (by simp at hn; omega) cs rfl]
          rfl
        | op o => cases hc
        | target t => cases hc
      | false =>
        rw [List.cons_append, metas_other hc, metas_other hc, leading_append_meta]
        simp only
        have := leading_length cs
        rw [ih (leading cs).2.length (by simp at hn; omega) _ rfl]
        rfl

/-- Up to the last meta-operation, and the rest. -/
theorem split_last (cs : List Chunk) :
    ∃ a b, cs = a ++ b ∧ NoMeta b ∧ (a = [] ∨ ∃ a' m, a = a' ++ [.meta m]) := by
  induction cs with
  | nil => exact ⟨[], [], rfl, fun _ h => by (cases h), Or.inl rfl⟩
  | cons c cs ih =>
    obtain ⟨a, b, h1, h2, h3⟩ := ih
    rcases h3 with rfl | ⟨a', m, rfl⟩
    · cases c with
      | «meta» m => exact ⟨[.meta m], b, by rw [h1]; rfl, h2, Or.inr ⟨[], m, rfl⟩⟩
      | op o =>
        refine ⟨[], .op o :: b, by rw [h1]; rfl, ?_, Or.inl rfl⟩
        intro c hc
        rcases List.mem_cons.mp hc with rfl | hc
        · rfl
        · exact h2 c hc
      | target t =>
        refine ⟨[], .target t :: b, by rw [h1]; rfl, ?_, Or.inl rfl⟩
        intro c hc
        rcases List.mem_cons.mp hc with rfl | hc
        · rfl
        · exact h2 c hc
    · exact ⟨c :: a' ++ [.meta m], b, by rw [h1]; simp, h2, Or.inr ⟨c :: a', m, rfl⟩⟩

theorem metas_split {a b : List Chunk} (hb : NoMeta b) (ha : a = [] ∨ ∃ a' m, a = a' ++ [.meta m]) :
    metas (a ++ b) = metas a ++ dfltMeta b := by
  rcases ha with rfl | ⟨a', m, rfl⟩
  · rw [List.nil_append, metas_noMeta hb, metas_nil, List.nil_append]
  · rw [List.append_assoc, List.singleton_append, metas_append_meta, metas_noMeta hb,
      metas_append_meta, metas_nil]
    simp

theorem metas_last_named {a : List Chunk} (hg : Good a) (ha : a = [] ∨ ∃ a' m, a = a' ++ [.meta m]) :
    metas a = [] ∨ ∃ ms m, metas a = ms ++ [m] ∧ m.name ≠ "" := by
  rcases ha with rfl | ⟨a', m, rfl⟩
  · exact Or.inl metas_nil
  · refine Or.inr ⟨metas a', m, ?_, hg.2 m (by simp)⟩
    rw [metas_append_meta, metas_nil]

theorem ensureMeta_split {a b : List Chunk} (hg : Good (a ++ b)) (hb : NoMeta b)
    (ha : a = [] ∨ ∃ a' m, a = a' ++ [.meta m]) :
    ensureMeta (metas (a ++ b)) = metas a ++ [⟨"", [], ops b⟩] := by
  rw [metas_split hb ha]
  unfold dfltMeta
  by_cases h : b = []
  · subst h
    rw [if_pos rfl, List.append_nil]
    rcases metas_last_named (good_append.mp hg).1 ha with h1 | ⟨ms, m, h1, h2⟩
    · rw [h1]; rfl
    · rw [h1]
      unfold ensureMeta
      simp only [List.getLast?_concat]
      rw [if_pos h2]
      rfl
  · rw [if_neg h]
    unfold ensureMeta
    simp only [List.getLast?_concat]
    rw [if_neg (by simp)]

/-! ## Names -/

theorem named_cons (n : Name) (ns : List Name) :
    named join (n :: ns) =
      if n.proj ≠ none then none
      else if isOp n then
        (named join ns).bind fun xs => some (.op ⟨n.value, [], []⟩ :: xs)
      else
        match n.pair with
        | none => (named join ns).bind fun xs => some (.target ⟨"", n⟩ :: xs)
        | some c =>
          if c ≠ '@' ∨ n.type ≠ "" then none
          else
            match ns with
            | [] => none
            | m :: ns =>
              (named join ns).bind fun xs =>
                some (.target ⟨if n.value = "" then n.dir else join n.dir n.value, m⟩ :: xs) := by
  rw [named.eq_def]
  cases ns <;> rfl

theorem addNames_cons (os : List OpSpec) (n : Name) (ns : List Name) :
    addNames join os (n :: ns) =
      if n.proj ≠ none then .error .qualified
      else if opname n then addNames join (os ++ [⟨n.value, [], []⟩]) ns
      else
        match n.pair with
        | none => addNames join (addTarget os ⟨"", n⟩) ns
        | some c =>
          if c ≠ '@' then .error .pairStyle
          else if n.type ≠ "" then .error .typedBase
          else
            match ns with
            | [] => .error .assertHalf
            | m :: ns =>
              addNames join
                (addTarget os ⟨if n.value = "" then n.dir else join n.dir n.value, m⟩) ns := by
  rw [addNames.eq_def]
  cases ns <;> rfl

theorem named_good {ns : List Name} {xs : List Chunk} (h : named join ns = some xs) :
    Good xs ∧ NoMeta xs ∧ (ns ≠ [] → xs ≠ []) := by
  induction hn : ns.length using Nat.strongRecOn generalizing ns xs with
  | ind k ih =>
    have cons : ∀ (c : Chunk) (ns' : List Name), ns'.length < k → (c.isMeta = false) →
        (∀ o, c = .op o → o.name ≠ "") → ∀ ys, named join ns' = some ys → xs = c :: ys →
        Good xs ∧ NoMeta xs ∧ (ns ≠ [] → xs ≠ []) := by
      intro c ns' hlt hc ho ys hys hxs
      obtain ⟨h1, h2, -⟩ := ih ns'.length hlt hys rfl
      subst hxs
      refine ⟨⟨fun o hm => ?_, fun m hm => ?_⟩, fun d hd => ?_, fun _ => by simp⟩
      · rcases List.mem_cons.mp hm with e | e
        · exact ho o e.symm
        · exact h1.1 o e
      · rcases List.mem_cons.mp hm with e | e
        · rw [← e] at hc; cases hc
        · exact h1.2 m e
      · rcases List.mem_cons.mp hd with e | e
        · rw [e]; exact hc
        · exact h2 d e
    cases ns with
    | nil =>
      rw [named] at h
      cases h
      exact ⟨good_nil, fun _ h => by (cases h), fun h => absurd rfl h⟩
    | cons n ns =>
      rw [named_cons] at h
      split at h
      · cases h
      · split at h
        · next hop =>
          simp only [Option.bind_eq_some_iff, Option.some.injEq] at h
          obtain ⟨ys, hys, rfl⟩ := h
          refine cons _ ns (by simp at hn; omega) rfl ?_ ys hys rfl
          intro o e
          cases e
          unfold isOp at hop
          simp only [decide_eq_true_eq] at hop
          exact isIdent_ne hop.2.2.2.2
        · split at h
          · simp only [Option.bind_eq_some_iff, Option.some.injEq] at h
            obtain ⟨ys, hys, rfl⟩ := h
            exact cons _ ns (by simp at hn; omega) rfl (fun o e => by cases e) ys hys rfl
          · split at h
            · cases h
            · cases ns with
              | nil => cases h
              | cons m ns =>
                simp only [Option.bind_eq_some_iff, Option.some.injEq] at h
                obtain ⟨ys, hys, rfl⟩ := h
                exact cons _ ns (by simp at hn; omega) rfl (fun o e => by cases e) ys hys rfl

/-- Not an assertion about the nested specification, nor a lack of fuel. -/
def Plain (e : Err) : Prop := e ≠ .assertMetas ∧ e ≠ .assertOps ∧ e ≠ .fuel

theorem addNames_named (ns : List Name) (b : List Chunk) (hg : Good b) (hb : NoMeta b) :
    (∀ xs, named join ns = some xs → addNames join (ops b) ns = .ok (ops (b ++ xs))) ∧
    (named join ns = none → ∃ e, addNames join (ops b) ns = .error e ∧ Plain e) := by
  induction hn : ns.length using Nat.strongRecOn generalizing ns b with
  | ind k ih =>
    have goodSnoc : ∀ c : Chunk, (∀ o, c = .op o → o.name ≠ "") → c.isMeta = false →
        Good (b ++ [c]) ∧ NoMeta (b ++ [c]) := by
      intro c ho hc
      refine ⟨good_append.mpr ⟨hg, fun o hm => ?_, fun m hm => ?_⟩, noMeta_append.mpr ⟨hb, ?_⟩⟩
      · rw [List.mem_singleton] at hm; exact ho o hm.symm
      · rw [List.mem_singleton] at hm; rw [← hm] at hc; cases hc
      · intro d hd; rw [List.mem_singleton] at hd; rw [hd]; exact hc
    -- One more.
    have next : ∀ (c : Chunk) (os : List OpSpec) (ns' : List Name), ns'.length < k →
        Good (b ++ [c]) ∧ NoMeta (b ++ [c]) → os = ops (b ++ [c]) →
        (∀ xs, ((named join ns').bind fun xs => some (c :: xs)) = some xs →
          addNames join os ns' = .ok (ops (b ++ xs))) ∧
        (((named join ns').bind fun xs => some (c :: xs)) = none →
          ∃ e, addNames join os ns' = .error e ∧ Plain e) := by
      rintro c os ns' hlt ⟨hg', hn'⟩ rfl
      obtain ⟨h1, h2⟩ := ih ns'.length hlt ns' (b ++ [c]) hg' hn' rfl
      constructor
      · intro xs h
        rw [Option.bind_eq_some_iff] at h
        obtain ⟨ys, hys, h⟩ := h
        cases h
        rw [h1 ys hys, List.append_assoc]
        rfl
      · intro h
        rw [Option.bind_eq_none_iff] at h
        apply h2
        cases hx : named join ns' with
        | none => rfl
        | some ys => exact absurd (h ys hx) (by simp)
    cases ns with
    | nil =>
      rw [named, addNames]
      refine ⟨fun xs h => ?_, fun h => by cases h⟩
      cases h
      rw [List.append_nil]
    | cons n ns =>
      rw [named_cons, addNames_cons, opname_isOp]
      by_cases h1 : n.proj ≠ none
      · rw [if_pos h1, if_pos h1]
        exact ⟨fun xs h => by (cases h), fun _ => ⟨_, rfl, by decide, by decide, by decide⟩⟩
      · rw [if_neg h1, if_neg h1]
        by_cases h2 : isOp n = true
        · rw [if_pos h2, if_pos h2]
          refine next _ _ ns (by simp at hn; omega) (goodSnoc _ ?_ rfl) (ops_op_snoc _ _).symm
          intro o e
          cases e
          unfold isOp at h2
          simp only [decide_eq_true_eq] at h2
          exact isIdent_ne h2.2.2.2.2
        · rw [if_neg h2, if_neg h2]
          cases hp : n.pair with
          | none =>
            exact next _ _ ns (by simp at hn; omega) (goodSnoc _ (fun o e => by cases e) rfl)
              (ops_target_snoc _ hg hb _).symm
          | some c =>
            simp only
            by_cases h3 : c ≠ '@'
            · rw [if_pos (Or.inl h3), if_pos h3]
              exact ⟨fun xs h => by (cases h), fun _ => ⟨_, rfl, by decide, by decide, by decide⟩⟩
            · by_cases h4 : n.type ≠ ""
              · rw [if_pos (Or.inr h4), if_neg h3, if_pos h4]
                exact ⟨fun xs h => by (cases h), fun _ => ⟨_, rfl, by decide, by decide, by decide⟩⟩
              · rw [if_neg (by rintro (h | h); exact h3 h; exact h4 h), if_neg h3, if_neg h4]
                cases ns with
                | nil =>
                  exact ⟨fun xs h => by (cases h),
                    fun _ => ⟨_, rfl, by decide, by decide, by decide⟩⟩
                | cons m ns =>
                  exact next _ _ ns (by simp at hn; omega)
                    (goodSnoc _ (fun o e => by cases e) rfl) (ops_target_snoc _ hg hb _).symm

theorem addAll_named (ns : List Name) (hne : ns ≠ []) (cs : List Chunk) (hg : Good cs) :
    (∀ xs, named join ns = some xs → addAll join (metas cs) ns = .ok (metas (cs ++ xs))) ∧
    (named join ns = none → ∃ e, addAll join (metas cs) ns = .error e ∧ Plain e) := by
  obtain ⟨a, b, rfl, hb, ha⟩ := split_last cs
  obtain ⟨h1, h2⟩ := addNames_named join ns b (good_append.mp hg).2 hb
  have he := ensureMeta_split hg hb ha
  have hl : ((ensureMeta (metas (a ++ b))).getLast?.map (·.ops)).getD [] = ops b := by
    rw [he, List.getLast?_concat]
    rfl
  unfold addAll
  simp only [hl]
  constructor
  · intro xs hx
    obtain ⟨-, k2, k3⟩ := named_good join hx
    rw [h1 xs hx]
    simp only [bind, Except.bind]
    rw [he, updLast_append, List.append_assoc, metas_split (noMeta_append.mpr ⟨hb, k2⟩) ha]
    unfold dfltMeta
    rw [if_neg]
    intro e
    exact k3 hne (List.append_eq_nil_iff.mp e).2
  · intro hx
    obtain ⟨e, k1, k2⟩ := h2 hx
    exact ⟨e, by rw [k1]; rfl, k2⟩

/-! ## Parentheses -/

theorem metas_any (cs : List Chunk) (hg : Good cs) :
    ((metas cs).any fun m => m.name ≠ "") = cs.any Chunk.isMeta := by
  by_cases h : NoMeta cs
  · have h1 : cs.any Chunk.isMeta = false := by
      rw [List.any_eq_false]
      intro c hc
      rw [h c hc]
      simp
    rw [h1, metas_noMeta h]
    unfold dfltMeta
    split <;> simp
  · have : ∃ m, Chunk.meta m ∈ cs := by
      apply Classical.byContradiction
      intro hn
      apply h
      intro c hc
      cases c with
      | «meta» m => exact absurd ⟨m, hc⟩ hn
      | op o => rfl
      | target t => rfl
    obtain ⟨m, hm⟩ := this
    have h1 : cs.any Chunk.isMeta = true := List.any_eq_true.mpr ⟨_, hm, rfl⟩
    rw [h1, List.any_eq_true]
    obtain ⟨s, t, rfl⟩ := List.append_of_mem hm
    refine ⟨m, ?_, ?_⟩
    · rw [metas_append_meta]; simp
    · simpa using hg.2 m hm

theorem ops_any {cs : List Chunk} (hg : Good cs) (hn : NoMeta cs) :
    ((ops cs).any fun o => o.name ≠ "") = cs.any Chunk.isOp := by
  induction cs with
  | nil => rfl
  | cons c cs ih =>
    have ih := ih ((good_append (a := [c])).mp hg |>.2) ((noMeta_append (a := [c])).mp hn |>.2)
    cases c with
    | «meta» m => have := hn (.meta m) (by simp); cases this
    | op o =>
      have := hg.1 o (by simp)
      simp [ops, Chunk.isOp, this]
    | target t =>
      cases cs with
      | nil => rfl
      | cons d cs =>
        cases d with
        | «meta» m => have := hn (.meta m) (by simp); cases this
        | op o =>
          have h1 : ops (.target t :: .op o :: cs) = ⟨"", [], [t]⟩ :: ops (.op o :: cs) := rfl
          rw [h1, List.any_cons, ih]
          simp [Chunk.isOp]
        | target u =>
          obtain ⟨ts, os, h⟩ := ops_target_head u cs
          rw [ops_tt h, List.any_cons]
          rw [h, List.any_cons] at ih
          rw [List.any_cons, ← ih]
          simp [Chunk.isOp]

theorem ops_targets {cs : List Chunk} (hne : cs ≠ []) (hn : NoMeta cs)
    (ho : cs.any Chunk.isOp = false) : ops cs = [⟨"", [], targets cs⟩] := by
  induction cs with
  | nil => exact absurd rfl hne
  | cons c cs ih =>
    rw [List.any_cons, Bool.or_eq_false_iff] at ho
    cases c with
    | «meta» m => have := hn (.meta m) (by simp); cases this
    | op o => cases ho.1
    | target t =>
      cases cs with
      | nil => rfl
      | cons d cs =>
        have ih := ih (by simp) ((noMeta_append (a := [.target t])).mp hn |>.2) ho.2
        cases d with
        | «meta» m => have := hn (.meta m) (by simp); cases this
        | op o => cases ho.2
        | target u =>
          rw [ops_tt ih]
          rfl

theorem noMeta_of_any {cs : List Chunk} (h : cs.any Chunk.isMeta = false) : NoMeta cs := by
  intro c hc
  rw [List.any_eq_false] at h
  cases hm : c.isMeta with
  | false => rfl
  | true => exact absurd hm (by simpa using h c hc)

/-- What is in the parentheses becomes. -/
def applied (ns : List Name) (inside : List Chunk) (ps : List Val) : Option (List Chunk) :=
  if inside.any Chunk.isMeta then none
  else if inside.any Chunk.isOp then some (ns.map fun n => .meta ⟨n.value, ps, ops inside⟩)
  else some (ns.map fun n => .op ⟨n.value, ps, targets inside⟩)

theorem applied_good {ns : List Name} {inside xs : List Chunk} {ps : List Val}
    (hop : ns.all isOp = true) (h : applied ns inside ps = some xs) : Good xs := by
  have hv : ∀ n ∈ ns, n.value ≠ "" := by
    intro n hn
    have := List.all_eq_true.mp hop n hn
    unfold isOp at this
    simp only [decide_eq_true_eq] at this
    exact isIdent_ne this.2.2.2.2
  unfold applied at h
  split at h
  · cases h
  · split at h
    · cases h
      refine ⟨fun o ho => ?_, fun m hm => ?_⟩
      · obtain ⟨n, -, e⟩ := List.mem_map.mp ho; cases e
      · obtain ⟨n, hn, e⟩ := List.mem_map.mp hm; cases e; exact hv n hn
    · cases h
      refine ⟨fun o ho => ?_, fun m hm => ?_⟩
      · obtain ⟨n, hn, e⟩ := List.mem_map.mp ho; cases e; exact hv n hn
      · obtain ⟨n, -, e⟩ := List.mem_map.mp hm; cases e

theorem metas_append_metas (cs : List Chunk) (ms : List MetaSpec) :
    metas (cs ++ ms.map .meta) = metas cs ++ ms := by
  induction ms generalizing cs with
  | nil => simp
  | cons m ms ih =>
    rw [List.map_cons, metas_append_meta]
    have := ih []
    rw [List.nil_append, metas_nil, List.nil_append] at this
    rw [this]

theorem ops_append_ops (cs : List Chunk) (os : List OpSpec) :
    ops (cs ++ os.map .op) = ops cs ++ os := by
  induction os generalizing cs with
  | nil => simp
  | cons o os ih =>
    have := ih (cs ++ [.op o])
    rw [List.append_assoc, ops_op_snoc, List.append_assoc] at this
    simpa using this

theorem merge_applied (cs : List Chunk) (hg : Good cs) (ns : List Name) (hne : ns ≠ [])
    (inside : List Chunk) (hin : inside ≠ []) (hgi : Good inside) (ps : List Val) :
    (∀ xs, applied ns inside ps = some xs →
      merge (metas cs) ns (metas inside) ps = .ok (metas (cs ++ xs))) ∧
    (applied ns inside ps = none →
      ∃ e, merge (metas cs) ns (metas inside) ps = .error e ∧ Plain e) := by
  unfold applied merge
  rw [metas_any _ hgi]
  by_cases h1 : inside.any Chunk.isMeta = true
  · rw [if_pos h1, if_pos h1]
    exact ⟨fun xs h => by (cases h), fun _ => ⟨_, rfl, by decide, by decide, by decide⟩⟩
  · rw [if_neg h1, if_neg h1]
    have hn : NoMeta inside := noMeta_of_any (by simpa using h1)
    rw [metas_noMeta hn]
    unfold dfltMeta
    rw [if_neg hin]
    simp only
    rw [ops_any hgi hn]
    by_cases h2 : inside.any Chunk.isOp = true
    · rw [if_pos h2, if_pos h2]
      refine ⟨fun xs h => ?_, fun h => by (cases h)⟩
      cases h
      have : (ns.map fun n => Chunk.meta ⟨n.value, ps, ops inside⟩) =
          (ns.map fun n => (⟨n.value, ps, ops inside⟩ : MetaSpec)).map .meta := by
        rw [List.map_map]; rfl
      rw [this, metas_append_metas]
    · rw [if_neg h2, if_neg h2, ops_targets hin hn (by simpa using h2)]
      refine ⟨fun xs h => ?_, fun h => by (cases h)⟩
      cases h
      obtain ⟨a, b, rfl, hb, ha⟩ := split_last cs
      simp only
      rw [ensureMeta_split hg hb ha, updLast_append, List.append_assoc,
        metas_split (noMeta_append.mpr ⟨hb, ?_⟩) ha]
      · have : (ns.map fun n => Chunk.op ⟨n.value, ps, targets inside⟩) =
            (ns.map fun n => (⟨n.value, ps, targets inside⟩ : OpSpec)).map .op := by
          rw [List.map_map]; rfl
        unfold dfltMeta
        rw [this, ops_append_ops, if_neg]
        intro e
        have := (List.append_eq_nil_iff.mp e).2
        simp at this
        exact hne this
      · intro c hc
        obtain ⟨n, -, rfl⟩ := List.mem_map.mp hc
        rfl

theorem spells_apply (ns : List Name) (body rest : Written) (params : List Val) (omitted : Bool) :
    spells join (.apply ns body params omitted rest) =
      (spells join body).bind fun inside =>
      (spells join rest).bind fun after =>
      if ns = [] ∨ inside = [] ∨ ¬ ns.all isOp then none
      else (applied ns inside (params ++ (if omitted then [[]] else []))).map (· ++ after) := by
  rw [spells]
  simp only [Option.bind_eq_bind]
  congr 1
  funext inside
  congr 1
  funext after
  unfold applied
  by_cases h1 : ns = [] ∨ inside = [] ∨ ¬ ns.all isOp
  · rw [if_pos h1, if_pos]
    rcases h1 with h | h | h
    · exact Or.inl h
    · exact Or.inr (Or.inl h)
    · exact Or.inr (Or.inr (Or.inl h))
  · rw [if_neg h1]
    by_cases h2 : inside.any Chunk.isMeta = true
    · rw [if_pos (Or.inr (Or.inr (Or.inr h2))), if_pos h2]
      rfl
    · rw [if_neg, if_neg h2]
      · split <;> rfl
      · rintro (h | h | h | h)
        · exact h1 (Or.inl h)
        · exact h1 (Or.inr (Or.inl h))
        · exact h1 (Or.inr (Or.inr h))
        · exact h2 h

theorem spells_names (ns : List Name) (rest : Written) :
    spells join (.names ns rest) =
      if ns = [] then none
      else (named join ns).bind fun xs => (spells join rest).map (xs ++ ·) := by
  rw [spells]
  split
  · rfl
  · simp only [Option.bind_eq_bind]
    cases named join ns with
    | none => rfl
    | some xs =>
      cases spells join rest with
      | none => rfl
      | some ys => rfl

theorem spells_good {w : Written} {xs : List Chunk} (h : spells join w = some xs) :
    Good xs ∧ (xs = [] → w = .nil) := by
  induction w generalizing xs with
  | nil => rw [spells] at h; cases h; exact ⟨good_nil, fun _ => rfl⟩
  | names ns rest ih =>
    rw [spells_names] at h
    split at h
    · cases h
    · next hne =>
      rw [Option.bind_eq_some_iff] at h
      obtain ⟨a, ha, h⟩ := h
      rw [Option.map_eq_some_iff] at h
      obtain ⟨b, hb, rfl⟩ := h
      obtain ⟨k1, -, k3⟩ := named_good join ha
      refine ⟨good_append.mpr ⟨k1, (ih hb).1⟩, fun e => ?_⟩
      exact absurd (List.append_eq_nil_iff.mp e).1 (k3 hne)
  | apply ns body params omitted rest ihb ihr =>
    rw [spells_apply] at h
    rw [Option.bind_eq_some_iff] at h
    obtain ⟨inside, hi, h⟩ := h
    rw [Option.bind_eq_some_iff] at h
    obtain ⟨after, ha, h⟩ := h
    split at h
    · cases h
    · next hc =>
      rw [Option.map_eq_some_iff] at h
      obtain ⟨b, hb, rfl⟩ := h
      have hop : ns.all isOp = true := Decidable.byContradiction fun h => hc (Or.inr (Or.inr h))
      refine ⟨good_append.mpr ⟨applied_good hop hb, (ihr ha).1⟩, fun e => ?_⟩
      exfalso
      have := (List.append_eq_nil_iff.mp e).1
      subst this
      unfold applied at hb
      split at hb
      · cases hb
      · split at hb <;>
        · simp at hb
          exact hc (Or.inl hb)

/-! ## The loop -/

theorem parseParams_tokens (acc ps : List Val) (omitted : Bool) (ts : List Tok) :
    parseParams acc (ps.flatMap (fun v => [.comma, .names v]) ++
      (if omitted then [.comma] else []) ++ .rparen :: ts) =
      (acc ++ ps ++ (if omitted then [[]] else []), .rparen :: ts) := by
  induction ps generalizing acc with
  | nil =>
    cases omitted with
    | false => simp [parseParams]
    | true => simp [parseParams]
  | cons v ps ih =>
    have := ih (acc ++ [v])
    simp only [List.flatMap_cons, List.cons_append, List.nil_append]
    rw [parseParams, this]
    simp

theorem parseParams_sound (acc : List Val) (ts : List Tok) (ps : List Val) (r : List Tok)
    (h : parseParams acc ts = (ps, .rparen :: r)) :
    ∃ (qs : List Val) (omitted : Bool), ps = acc ++ qs ++ (if omitted then [[]] else []) ∧
      ts = qs.flatMap (fun v => [.comma, .names v]) ++
        (if omitted then [.comma] else []) ++ .rparen :: r := by
  induction hn : ts.length using Nat.strongRecOn generalizing acc ts with
  | ind n ih =>
    rw [parseParams.eq_def] at h
    split at h
    · cases h
      exact ⟨[], true, by simp, by simp⟩
    · next ns ts' =>
      obtain ⟨qs, o, h1, h2⟩ := ih ts'.length (by simp at hn; omega) (acc ++ [ns]) ts' h rfl
      exact ⟨ns :: qs, o, by rw [h1]; simp, by rw [h2]; simp⟩
    · cases h
      exact ⟨[], false, by simp, by simp⟩

theorem clause_nil (f : Nat) (first : Bool) (bs : List MetaSpec) (ts : List Tok) :
    clause join (f + 1) first bs (.names [] :: ts) = .error .noNames := by
  simp only [clause]
  rfl

theorem clause_apply (f : Nat) (first : Bool) (bs : List MetaSpec) (ns : List Name)
    (hne : ns ≠ []) (ts : List Tok) :
    clause join (f + 1) first bs (.names ns :: .lparen :: ts) =
      if ¬ ns.all isOp then .error .expectedOp
      else
        match clause join f true [] ts with
        | .error e => .error e
        | .ok (nbs, ts) =>
          match parseParams [] ts with
          | (ps, .rparen :: ts) =>
            match merge bs ns nbs ps with
            | .error e => .error e
            | .ok bs => clause join f false bs ts
          | _ => .error .expectedRparen := by
  have hall : ns.all opname = ns.all isOp := by
    congr 1
    funext n
    exact opname_isOp n
  rw [← hall]
  rw [clause.eq_def]
  simp only
  rw [if_neg hne]
  rfl

theorem clause_names (f : Nat) (first : Bool) (bs : List MetaSpec) (ns : List Name)
    (hne : ns ≠ []) (ts : List Tok) (hts : ∀ r, ts ≠ .lparen :: r) :
    clause join (f + 1) first bs (.names ns :: ts) =
      match addAll join bs ns with
      | .error e => .error e
      | .ok bs => clause join f false bs ts := by
  rw [clause.eq_def]
  simp only
  rw [if_neg hne]
  cases ts with
  | nil => rfl
  | cons t r =>
    cases t with
    | lparen => exact absurd rfl (hts r)
    | names _ => rfl
    | rparen => rfl
    | comma => rfl

theorem clause_stop (f : Nat) (first : Bool) (bs : List MetaSpec) (ts : List Tok)
    (h : ∀ ns r, ts ≠ .names ns :: r) :
    clause join (f + 1) first bs ts =
      if first then .error .expectedSpec else .ok (bs, ts) := by
  rw [clause.eq_def]
  cases ts with
  | nil => rfl
  | cons t r =>
    cases t with
    | names ns => exact absurd rfl (h ns r)
    | lparen => rfl
    | rparen => rfl
    | comma => rfl

/-- What can follow: not something that would be taken as a part. -/
def Stops : List Tok → Prop
  | .names _ :: _ => False
  | .lparen :: _ => False
  | _ => True

theorem tokens_head (w : Written) (r : List Tok) (hr : Stops r) :
    ∀ ts, w.tokens ++ r ≠ .lparen :: ts := by
  intro ts h
  cases w with
  | nil =>
    rw [Written.tokens, List.nil_append] at h
    subst h
    exact hr
  | names ns rest => rw [Written.tokens] at h; cases h
  | apply ns body ps o rest => rw [Written.tokens] at h; cases h

theorem clause_complete (w : Written) (f : Nat) (hf : w.tokens.length < f) (first : Bool)
    (cs : List Chunk) (hg : Good cs) (r : List Tok) (hr : Stops r) :
    (first = true → w = .nil → clause join f first (metas cs) (w.tokens ++ r) = .error .expectedSpec) ∧
    (¬ (first = true ∧ w = .nil) →
      (∀ xs, spells join w = some xs →
        clause join f first (metas cs) (w.tokens ++ r) = .ok (metas (cs ++ xs), r)) ∧
      (spells join w = none →
        ∃ e, clause join f first (metas cs) (w.tokens ++ r) = .error e ∧ Plain e)) := by
  have stop : ∀ r : List Tok, Stops r → ∀ ns t, r ≠ .names ns :: t := by
    rintro r hr ns t rfl
    exact hr
  induction w generalizing f first cs r with
  | nil =>
    cases f with
    | zero => simp at hf
    | succ f =>
      rw [Written.tokens, List.nil_append]
      constructor
      · rintro rfl _
        rw [clause_stop join f _ _ _ (stop r hr)]
        rfl
      · intro h
        have : first = false := by
          cases first with
          | false => rfl
          | true => exact absurd ⟨rfl, rfl⟩ h
        subst this
        refine ⟨fun xs hx => ?_, fun hx => by rw [spells] at hx; cases hx⟩
        rw [spells] at hx
        cases hx
        rw [List.append_nil]
        rw [clause_stop join f _ _ _ (stop r hr)]
        rfl
  | names ns rest ih =>
    cases f with
    | zero => simp at hf
    | succ f =>
      have hf' : rest.tokens.length < f := by
        rw [Written.tokens, List.length_cons] at hf; omega
      refine ⟨fun _ h => by (cases h), fun _ => ?_⟩
      rw [Written.tokens, List.cons_append, spells_names]
      by_cases hne : ns = []
      · rw [if_pos hne, hne, clause_nil]
        exact ⟨fun xs h => by (cases h), fun _ => ⟨_, rfl, by decide, by decide, by decide⟩⟩
      · rw [if_neg hne, clause_names join f _ _ ns hne _ (tokens_head rest r hr)]
        obtain ⟨h1, h2⟩ := addAll_named join ns hne cs hg
        cases hn : named join ns with
        | none =>
          obtain ⟨e, he, hp⟩ := h2 hn
          rw [he]
          exact ⟨fun xs h => by (cases h), fun _ => ⟨e, rfl, hp⟩⟩
        | some xs =>
          rw [h1 xs hn]
          have hgx := (named_good join hn).1
          obtain ⟨-, k2⟩ := ih f hf' false (cs ++ xs) (good_append.mpr ⟨hg, hgx⟩) r hr
          obtain ⟨k3, k4⟩ := k2 (by rintro ⟨h, -⟩; cases h)
          constructor
          · intro zs hz
            simp only [Option.bind_some] at hz
            rw [Option.map_eq_some_iff] at hz
            obtain ⟨ys, hy, rfl⟩ := hz
            rw [← List.append_assoc]
            exact k3 ys hy
          · intro hz
            simp only [Option.bind_some] at hz
            rw [Option.map_eq_none_iff] at hz
            exact k4 hz
  | apply ns body params omitted rest ihb ihr =>
    cases f with
    | zero => simp at hf
    | succ f =>
      have hlen : body.tokens.length < f ∧ rest.tokens.length < f := by
        rw [Written.tokens] at hf
        simp only [List.length_cons, List.length_append] at hf
        omega
      refine ⟨fun _ h => by (cases h), fun _ => ?_⟩
      rw [Written.tokens, List.cons_append, List.cons_append, spells_apply]
      by_cases hne : ns = []
      · rw [hne, clause_nil]
        refine ⟨fun xs h => ?_, fun _ => ⟨_, rfl, by decide, by decide, by decide⟩⟩
        rw [Option.bind_eq_some_iff] at h
        obtain ⟨i, -, h⟩ := h
        rw [Option.bind_eq_some_iff] at h
        obtain ⟨j, -, h⟩ := h
        rw [if_pos (Or.inl rfl)] at h
        cases h
      · rw [clause_apply join f _ _ ns hne]
        by_cases hop : ns.all isOp = true
        · rw [if_neg (c := ¬ ns.all isOp = true) (fun h => h hop)]
          have hstop : Stops ((params.flatMap (fun v => [.comma, .names v]) ++
              (if omitted then [.comma] else []) ++ .rparen :: rest.tokens) ++ r) := by
            cases params with
            | nil => cases omitted <;> exact trivial
            | cons v ps => exact trivial
          have hassoc : body.tokens ++ (params.flatMap (fun v => [.comma, .names v]) ++
              (if omitted then [.comma] else []) ++ .rparen :: rest.tokens) ++ r =
              body.tokens ++ ((params.flatMap (fun v => [.comma, .names v]) ++
              (if omitted then [.comma] else []) ++ .rparen :: rest.tokens) ++ r) := by
            rw [List.append_assoc]
          rw [hassoc]
          have hparams : parseParams [] ((params.flatMap (fun v => [.comma, .names v]) ++
              (if omitted then [.comma] else []) ++ .rparen :: rest.tokens) ++ r) =
              (params ++ (if omitted then [[]] else []), .rparen :: (rest.tokens ++ r)) := by
            have := parseParams_tokens [] params omitted (rest.tokens ++ r)
            rw [List.nil_append] at this
            rw [← this, List.append_assoc, List.cons_append]
          obtain ⟨b1, b2⟩ := ihb f hlen.1 true [] good_nil _ hstop
          rw [metas_nil] at b1 b2
          by_cases hb : body = .nil
          · rw [b1 rfl hb]
            refine ⟨fun xs h => ?_, fun _ => ⟨_, rfl, by decide, by decide, by decide⟩⟩
            subst hb
            rw [spells] at h
            simp only [Option.bind_some] at h
            rw [Option.bind_eq_some_iff] at h
            obtain ⟨j, -, h⟩ := h
            rw [if_pos (Or.inr (Or.inl trivial))] at h
            cases h
          · obtain ⟨b3, b4⟩ := b2 (by rintro ⟨-, h⟩; exact hb h)
            cases hi : spells join body with
            | none =>
              obtain ⟨e, he, hp⟩ := b4 hi
              rw [he]
              exact ⟨fun xs h => by (cases h), fun _ => ⟨e, rfl, hp⟩⟩
            | some inside =>
              obtain ⟨hgi, hin⟩ := spells_good join hi
              have hin : inside ≠ [] := fun e => hb (hin e)
              rw [b3 inside hi, List.nil_append]
              simp only [Option.bind_some]
              rw [hparams]
              simp only
              obtain ⟨m1, m2⟩ := merge_applied cs hg ns hne inside hin hgi
                (params ++ (if omitted then [[]] else []))
              have hcond : ¬ (ns = [] ∨ inside = [] ∨ ¬ ns.all isOp) := by
                rintro (h | h | h)
                · exact hne h
                · exact hin h
                · exact h hop
              cases ha : applied ns inside (params ++ (if omitted then [[]] else [])) with
              | none =>
                obtain ⟨e, he, hp⟩ := m2 ha
                rw [he]
                refine ⟨fun xs h => ?_, fun _ => ⟨e, rfl, hp⟩⟩
                rw [Option.bind_eq_some_iff] at h
                obtain ⟨j, -, h⟩ := h
                rw [if_neg hcond] at h
                cases h
              | some xs =>
                rw [m1 xs ha]
                have hgx := applied_good hop ha
                obtain ⟨-, k2⟩ := ihr f hlen.2 false (cs ++ xs) (good_append.mpr ⟨hg, hgx⟩) r hr
                obtain ⟨k3, k4⟩ := k2 (by rintro ⟨h, -⟩; cases h)
                constructor
                · intro zs hz
                  rw [Option.bind_eq_some_iff] at hz
                  obtain ⟨after, haf, hz⟩ := hz
                  rw [if_neg hcond] at hz
                  simp only [Option.map_some, Option.some.injEq] at hz
                  subst hz
                  rw [← List.append_assoc]
                  exact k3 after haf
                · intro hz
                  apply k4
                  cases haf : spells join rest with
                  | none => rfl
                  | some after =>
                    rw [haf] at hz
                    simp only [Option.bind_some] at hz
                    rw [if_neg hcond] at hz
                    cases hz
        · rw [if_pos (c := ¬ ns.all isOp = true) hop]
          refine ⟨fun xs h => ?_, fun _ => ⟨_, rfl, by decide, by decide, by decide⟩⟩
          rw [Option.bind_eq_some_iff] at h
          obtain ⟨i, -, h⟩ := h
          rw [Option.bind_eq_some_iff] at h
          obtain ⟨j, -, h⟩ := h
          rw [if_pos (Or.inr (Or.inr hop))] at h
          cases h

/-- What is known of the outcome. -/
def Outcome (f : Nat) (first : Bool) (cs : List Chunk) (ts : List Tok) :
    Except Err (List MetaSpec × List Tok) → Prop
  | .ok (bs, r) => ∃ w xs, ts = w.tokens ++ r ∧ spells join w = some xs ∧
      bs = metas (cs ++ xs) ∧ (first = true → w ≠ .nil)
  | .error e => e ≠ .assertMetas ∧ e ≠ .assertOps ∧ (ts.length < f → e ≠ .fuel)

theorem clause_sound (f : Nat) (first : Bool) (cs : List Chunk) (hg : Good cs) (ts : List Tok) :
    Outcome join f first cs ts (clause join f first (metas cs) ts) := by
  induction f generalizing first cs ts with
  | zero => exact ⟨by decide, by decide, fun h => absurd h (by omega)⟩
  | succ f ih =>
    by_cases hns : ∃ ns r, ts = .names ns :: r
    · obtain ⟨ns, ts, rfl⟩ := hns
      by_cases hne : ns = []
      · rw [hne, clause_nil]
        exact ⟨by decide, by decide, fun _ => by decide⟩
      · by_cases hlp : ∃ r, ts = .lparen :: r
        · obtain ⟨ts, rfl⟩ := hlp
          rw [clause_apply join f _ _ ns hne]
          by_cases hop : ns.all isOp = true
          · rw [if_neg (c := ¬ ns.all isOp = true) (fun h => h hop)]
            have hb := ih true [] good_nil ts
            rw [metas_nil] at hb
            split
            · next e he =>
              rw [he] at hb
              exact ⟨hb.1, hb.2.1, fun h => hb.2.2 (by simp at h; omega)⟩
            · next nbs ts1 he =>
              rw [he] at hb
              obtain ⟨body, inside, h1, h2, h3, h4⟩ := hb
              have hbn := h4 rfl
              obtain ⟨hgi, hin⟩ := spells_good join h2
              have hin : inside ≠ [] := fun e => hbn (hin e)
              rw [List.nil_append] at h3
              split
              · next ps ts2 hps =>
                obtain ⟨qs, om, p1, p2⟩ := parseParams_sound [] ts1 ps ts2 hps
                rw [List.nil_append] at p1
                obtain ⟨m1, m2⟩ := merge_applied cs hg ns hne inside hin hgi ps
                rw [h3]
                cases ha : applied ns inside ps with
                | none =>
                  obtain ⟨e, he2, hp⟩ := m2 ha
                  rw [he2]
                  exact ⟨hp.1, hp.2.1, fun _ => hp.2.2⟩
                | some xs =>
                  rw [m1 xs ha]
                  simp only
                  have hgx := applied_good hop ha
                  have hr := ih false (cs ++ xs) (good_append.mpr ⟨hg, hgx⟩) ts2
                  cases hok : clause join f false (metas (cs ++ xs)) ts2 with
                  | ok q =>
                    obtain ⟨bs, r⟩ := q
                    rw [hok] at hr
                    obtain ⟨rest, after, k1, k2, k3, -⟩ := hr
                    refine ⟨.apply ns body qs om rest, xs ++ after, ?_, ?_, ?_, fun _ h => by (cases h)⟩
                    · rw [Written.tokens, h1, p2, k1]
                      simp
                    · rw [spells_apply, h2]
                      simp only [Option.bind_some, k2]
                      rw [if_neg, ← p1, ha]
                      · rfl
                      · rintro (h | h | h)
                        · exact hne h
                        · exact hin h
                        · exact h hop
                    · rw [k3, List.append_assoc]
                  | error e =>
                    rw [hok] at hr
                    refine ⟨hr.1, hr.2.1, fun h => hr.2.2 ?_⟩
                    have := congrArg List.length h1
                    have h2' := congrArg List.length p2
                    simp at h this h2'
                    omega
              · exact ⟨by decide, by decide, fun _ => by decide⟩
          · rw [if_pos (c := ¬ ns.all isOp = true) hop]
            exact ⟨by decide, by decide, fun _ => by decide⟩
        · rw [clause_names join f _ _ ns hne _ (fun r h => hlp ⟨r, h⟩)]
          obtain ⟨a1, a2⟩ := addAll_named join ns hne cs hg
          cases hn : named join ns with
          | none =>
            obtain ⟨e, he, hp⟩ := a2 hn
            rw [he]
            exact ⟨hp.1, hp.2.1, fun _ => hp.2.2⟩
          | some xs =>
            rw [a1 xs hn]
            simp only
            have hr := ih false (cs ++ xs) (good_append.mpr ⟨hg, (named_good join hn).1⟩) ts
            cases hok : clause join f false (metas (cs ++ xs)) ts with
            | ok q =>
              obtain ⟨bs, r⟩ := q
              rw [hok] at hr
              obtain ⟨rest, after, k1, k2, k3, -⟩ := hr
              refine ⟨.names ns rest, xs ++ after, ?_, ?_, ?_, fun _ h => by (cases h)⟩
              · rw [Written.tokens, k1]; rfl
              · rw [spells_names, if_neg hne, hn, k2]
                rfl
              · rw [k3, List.append_assoc]
            | error e =>
              rw [hok] at hr
              exact ⟨hr.1, hr.2.1, fun h => hr.2.2 (by simp at h; omega)⟩
    · rw [clause_stop join f _ _ _ (fun ns r h => hns ⟨ns, r, h⟩)]
      split
      · exact ⟨by decide, by decide, fun _ => by decide⟩
      · next hf =>
        exact ⟨.nil, [], rfl, rfl, by rw [List.append_nil], fun h => absurd h hf⟩

end Verif.BuildSpec
