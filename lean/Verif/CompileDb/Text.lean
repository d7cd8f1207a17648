import Verif.CompileDb.Model
/-!
# The compilation database: lemmas about the file
-/

namespace Verif.CompileDb

variable {O C : Type} [DecidableEq O]

theorem lines_line (acc l rest : List Char) (h : '\n' ∉ l) :
    lines acc (l ++ '\n' :: rest) = (acc ++ l) :: lines [] rest := by
  induction l generalizing acc with
  | nil => simp [lines]
  | cons c l ih =>
    have hc : c ≠ '\n' := fun e => h (by simp [e])
    rw [List.cons_append, lines, if_neg hc, ih _ (fun hm => h (by simp [hm]))]
    simp

theorem lines_cut (acc l : List Char) (h : '\n' ∉ l) :
    lines acc l = if acc ++ l = [] then [] else [acc ++ l] := by
  induction l generalizing acc with
  | nil => simp [lines]
  | cons c l ih =>
    have hc : c ≠ '\n' := fun e => h (by simp [e])
    rw [lines, if_neg hc, ih _ (fun hm => h (by simp [hm]))]
    simp

/-- The entries, after the first line. -/
def body : List Line → List Char
  | [] => "]\n".toList
  | [l] => l ++ "\n]\n".toList
  | l :: ls => l ++ ",\n".toList ++ body ls

omit [DecidableEq O] in
theorem render_eq (es : List (O × Line)) :
    render es = "[\n".toList ++ body (es.map (·.2)) := by
  unfold render
  rw [List.append_assoc]
  congr 1
  induction es with
  | nil => rfl
  | cons e es ih =>
    cases es with
    | nil => simp [body, List.intercalate]
    | cons f es =>
      simp only [List.map_cons, body, List.isEmpty_cons, Bool.false_eq_true, if_false] at ih ⊢
      rw [← ih]
      simp [List.intercalate, List.intersperse]

/-- Lines as they are written. -/
def Written (F : Format O C) (es : List (O × Line)) : Prop :=
  (es.map (·.1)).Nodup ∧ ∀ e ∈ es, ∃ c, e.2 = F.js e.1 c

theorem scan_entry (F : Format O C) (s : Scan) (hs : s = .next ∨ s = .second)
    (acc : List (O × Line)) (o : O) (c : C) (ls : List Line) (ho : o ∉ acc.map (·.1)) :
    scan F.outputOf s acc (F.js o c :: ls) = scan F.outputOf .last (acc ++ [(o, F.js o c)]) ls ∧
    scan F.outputOf s acc ((F.js o c ++ [',']) :: ls) =
      scan F.outputOf .next (acc ++ [(o, F.js o c)]) ls := by
  have hany : (acc.any fun e => decide (e.1 = o)) = false := by
    rw [List.any_eq_false]
    intro e he
    simp only [decide_eq_true_eq]
    exact fun h => ho (List.mem_map.mpr ⟨e, he, h⟩)
  obtain ⟨l, hl⟩ := F.starts o c
  constructor
  · rw [scan.eq_def]
    have hne : F.js o c ≠ "]".toList := by rw [hl]; simp
    rcases hs with rfl | rfl
    · simp only [F.ends o c, if_false, F.reads, hany, Bool.false_eq_true]
    · simp only [if_neg hne, F.ends o c, if_false, F.reads, hany, Bool.false_eq_true]
  · rw [scan.eq_def]
    have hne : F.js o c ++ [','] ≠ "]".toList := by rw [hl]; simp
    rcases hs with rfl | rfl
    · simp only [List.getLast?_concat, if_true, List.dropLast_concat, F.reads, hany,
        Bool.false_eq_true, if_false]
    · simp only [if_neg hne, List.getLast?_concat, if_true, List.dropLast_concat, F.reads, hany,
        Bool.false_eq_true, if_false]

theorem lines_close : lines [] "]\n".toList = ["]".toList] := by decide +kernel

theorem scan_close (f : Line → Option O) (acc : List (O × Line)) :
    scan f .last acc ["]".toList] = some acc := by
  rw [scan.eq_def]
  simp only [if_true]
  rw [scan.eq_def]
  simp

theorem scan_body (F : Format O C) (es : List (O × Line)) (s : Scan) (acc : List (O × Line))
    (hs : s = .next ∧ es ≠ [] ∨ s = .second) (hn : ((acc ++ es).map (·.1)).Nodup)
    (hw : ∀ e ∈ es, ∃ c, e.2 = F.js e.1 c) :
    scan F.outputOf s acc (lines [] (body (es.map (·.2)))) = some (acc ++ es) := by
  induction es generalizing s acc with
  | nil =>
    rcases hs with ⟨-, h⟩ | rfl
    · exact absurd rfl h
    · simp only [List.map_nil, body]
      rw [lines_close, scan.eq_def]
      simp only [if_true]
      rw [scan.eq_def]
      simp
  | cons e es ih =>
    obtain ⟨o, l⟩ := e
    obtain ⟨c, hc⟩ := hw (o, l) (by simp)
    simp only at hc
    subst hc
    have ho : o ∉ acc.map (·.1) := by
      intro hm
      rw [List.map_append, List.nodup_append] at hn
      exact hn.2.2 o hm o (by simp) rfl
    have hs' : s = .next ∨ s = .second := by
      rcases hs with ⟨h, -⟩ | h
      · exact Or.inl h
      · exact Or.inr h
    have hacc : acc ++ (o, F.js o c) :: es = acc ++ [(o, F.js o c)] ++ es := by simp
    cases es with
    | nil =>
      simp only [List.map_cons, List.map_nil, body]
      have : F.js o c ++ "\n]\n".toList = F.js o c ++ '\n' :: "]\n".toList := rfl
      rw [this, lines_line _ _ _ (F.one_line o c), List.nil_append,
        (scan_entry F s hs' acc o c _ ho).1, lines_close, scan_close]
    | cons f es =>
      rw [hacc]
      rw [hacc] at hn
      rw [← ih .next (acc ++ [(o, F.js o c)]) (Or.inl ⟨rfl, by simp⟩) hn
        (fun e he => hw e (by simp only [List.mem_cons] at he ⊢; exact Or.inr he))]
      simp only [List.map_cons, body]
      have : F.js o c ++ ",\n".toList ++ body (f.2 :: es.map (·.2)) =
          (F.js o c ++ [',']) ++ '\n' :: body (f.2 :: es.map (·.2)) := by simp
      rw [this, lines_line _ _ _ (by
        intro h
        rcases List.mem_append.mp h with h | h
        · exact F.one_line o c h
        · simp at h), List.nil_append, (scan_entry F s hs' acc o c _ ho).2]

theorem load_rendered (F : Format O C) (es : List (O × Line)) (h : Written F es) :
    load F.outputOf (render es) = some es := by
  unfold load
  rw [render_eq]
  have : "[\n".toList ++ body (es.map (·.2)) = "[".toList ++ '\n' :: body (es.map (·.2)) := rfl
  rw [this, lines_line _ _ _ (by decide), List.nil_append, scan.eq_def]
  simp only [if_true]
  exact scan_body F es .second [] (Or.inr rfl) h.1 h.2

/-! ## Truncated files -/

theorem prefix_line {p l rest : List Char} (h : p <+: l ++ '\n' :: rest) :
    p <+: l ∨ ∃ p', p = l ++ '\n' :: p' ∧ p' <+: rest := by
  induction l generalizing p with
  | nil =>
    rw [List.nil_append] at h
    cases p with
    | nil => exact Or.inl List.nil_prefix
    | cons x p =>
      rw [List.cons_prefix_cons] at h
      obtain ⟨rfl, h⟩ := h
      exact Or.inr ⟨p, rfl, h⟩
  | cons c l ih =>
    cases p with
    | nil => exact Or.inl List.nil_prefix
    | cons x p =>
      rw [List.cons_append, List.cons_prefix_cons] at h
      obtain ⟨rfl, h⟩ := h
      rcases ih h with h' | ⟨p', rfl, h'⟩
      · exact Or.inl (by rw [List.cons_prefix_cons]; exact ⟨rfl, h'⟩)
      · exact Or.inr ⟨p', rfl, h'⟩

theorem scan_unfinished (f : Line → Option O) (s : Scan) (acc : List (O × Line)) (l : Line)
    (hs : s ≠ .fin) (hl : l ≠ "]".toList) : scan f s acc [l] = none := by
  have h0 : ∀ s acc, s ≠ .fin → scan f s acc [] = none := by
    intro s acc h
    rw [scan.eq_def]
    simp only [if_neg h]
  have hentry : (let (l, s) := if l.getLast? = some ',' then (l.dropLast, Scan.next)
        else (l, Scan.last)
      match f l with
      | none => none
      | some o =>
        if acc.any fun e => e.1 = o then none
        else scan f s (acc ++ [(o, l)]) ([] : List Line)) = none := by
    split
    next l' s' heq =>
    have hs' : s' ≠ .fin := by
      split at heq <;> (injection heq with h1 h2; rw [← h2]; simp)
    split
    · rfl
    · split
      · rfl
      · exact h0 _ _ hs'
  rw [scan.eq_def]
  cases s with
  | first =>
    simp only
    split
    · exact h0 _ _ (by simp)
    · rfl
  | second => simp only [if_neg hl]; exact hentry
  | next => exact hentry
  | last => simp only [if_neg hl]
  | fin => rfl

theorem scan_nil (f : Line → Option O) (s : Scan) (acc : List (O × Line)) (hs : s ≠ .fin) :
    scan f s acc [] = none := by
  rw [scan.eq_def]
  simp only [if_neg hs]

/-- A cut line. -/
theorem scan_cut (F : Format O C) (s : Scan) (acc : List (O × Line)) (p l : Line)
    (hs : s ≠ .fin) (hp : p <+: l) (hn : '\n' ∉ l) (hl : ∃ c l', l = c :: l' ∧ c ≠ ']') :
    scan F.outputOf s acc (lines [] p) = none := by
  have hn' : '\n' ∉ p := fun h => hn (hp.subset h)
  rw [lines_cut _ _ hn', List.nil_append]
  split
  · exact scan_nil _ _ _ hs
  · next hne =>
    refine scan_unfinished _ _ _ _ hs ?_
    rintro rfl
    obtain ⟨c, l', rfl, hc⟩ := hl
    have : "]".toList = [']'] := rfl
    rw [this, List.cons_prefix_cons] at hp
    exact hc hp.1.symm

theorem scan_close_cut (f : Line → Option O) (s : Scan) (acc : List (O × Line)) (p : Line)
    (hs : s ≠ .fin) (hp : p <+: "]\n".toList) (h1 : p ≠ "]\n".toList) (h2 : p ≠ "]".toList) :
    scan f s acc (lines [] p) = none := by
  have : p = [] := by
    have e : "]\n".toList = [']', '\n'] := rfl
    rw [e] at hp h1
    match p, hp with
    | [], _ => rfl
    | [a], hp =>
      rw [List.cons_prefix_cons] at hp
      rw [hp.1] at h2
      exact absurd rfl h2
    | a :: b :: p, hp =>
      rw [List.cons_prefix_cons, List.cons_prefix_cons] at hp
      obtain ⟨rfl, rfl, hp⟩ := hp
      rw [List.prefix_nil] at hp
      rw [hp] at h1
      exact absurd rfl h1
  subst this
  exact scan_nil _ _ _ hs

theorem scan_body_cut (F : Format O C) (es : List (O × Line)) (s : Scan) (acc : List (O × Line))
    (p : List Char) (hs : s = .next ∧ es ≠ [] ∨ s = .second)
    (hn : ((acc ++ es).map (·.1)).Nodup) (hw : ∀ e ∈ es, ∃ c, e.2 = F.js e.1 c)
    (hp : p <+: body (es.map (·.2))) (h1 : p ≠ body (es.map (·.2)))
    (h2 : p ++ ['\n'] ≠ body (es.map (·.2))) :
    scan F.outputOf s acc (lines [] p) = none := by
  induction es generalizing s acc p with
  | nil =>
    simp only [List.map_nil, body] at hp h1 h2
    refine scan_close_cut _ _ _ _ ?_ hp h1 (fun h => h2 (by rw [h]; rfl))
    rcases hs with ⟨-, h⟩ | rfl
    · exact absurd rfl h
    · simp
  | cons e es ih =>
    obtain ⟨o, l⟩ := e
    obtain ⟨c, hc⟩ := hw (o, l) (by simp)
    simp only at hc
    subst hc
    have ho : o ∉ acc.map (·.1) := by
      intro hm
      rw [List.map_append, List.nodup_append] at hn
      exact hn.2.2 o hm o (by simp) rfl
    have hs' : s = .next ∨ s = .second := by
      rcases hs with ⟨h, -⟩ | h
      · exact Or.inl h
      · exact Or.inr h
    have hsf : s ≠ .fin := by rcases hs' with rfl | rfl <;> simp
    obtain ⟨l', hl'⟩ := F.starts o c
    cases es with
    | nil =>
      simp only [List.map_cons, List.map_nil, body] at hp h1 h2
      have e : F.js o c ++ "\n]\n".toList = F.js o c ++ '\n' :: "]\n".toList := rfl
      rw [e] at hp h1 h2
      rcases prefix_line hp with hp' | ⟨p', rfl, hp'⟩
      · exact scan_cut F s acc p _ hsf hp' (F.one_line o c) ⟨'{', l', hl', by decide⟩
      · rw [lines_line _ _ _ (F.one_line o c), List.nil_append,
          (scan_entry F s hs' acc o c _ ho).1]
        refine scan_close_cut _ _ _ _ (by simp) hp' (fun h => h1 (by rw [h])) (fun h => h2 ?_)
        rw [h]
        simp
    | cons f es =>
      have hacc : acc ++ (o, F.js o c) :: f :: es = acc ++ [(o, F.js o c)] ++ f :: es := by simp
      simp only [List.map_cons, body] at hp h1 h2
      have e : F.js o c ++ ",\n".toList ++ body (f.2 :: es.map (·.2)) =
          (F.js o c ++ [',']) ++ '\n' :: body (f.2 :: es.map (·.2)) := by simp
      rw [e] at hp h1 h2
      have hnl : '\n' ∉ F.js o c ++ [','] := by
        intro h
        rcases List.mem_append.mp h with h | h
        · exact F.one_line o c h
        · simp at h
      rcases prefix_line hp with hp' | ⟨p', rfl, hp'⟩
      · exact scan_cut F s acc p _ hsf hp' hnl ⟨'{', l' ++ [','], by rw [hl']; rfl, by decide⟩
      · rw [lines_line _ _ _ hnl, List.nil_append, (scan_entry F s hs' acc o c _ ho).2]
        rw [hacc] at hn
        refine ih .next _ p' (Or.inl ⟨rfl, by simp⟩) hn
          (fun e he => hw e (by simp only [List.mem_cons] at he ⊢; exact Or.inr he)) hp' ?_ ?_
        · intro h
          apply h1
          rw [h]
          rfl
        · intro h
          apply h2
          rw [List.append_assoc, List.cons_append, h]
          rfl

theorem load_cut (F : Format O C) (es : List (O × Line)) (hw : Written F es) (p : List Char)
    (hp : p <+: render es) (h1 : p ≠ render es) (h2 : p ++ ['\n'] ≠ render es) :
    load F.outputOf p = none := by
  unfold load
  rw [render_eq] at hp h1 h2
  have e : "[\n".toList ++ body (es.map (·.2)) = "[".toList ++ '\n' :: body (es.map (·.2)) := rfl
  rw [e] at hp h1 h2
  rcases prefix_line hp with hp' | ⟨p', rfl, hp'⟩
  · exact scan_cut F _ _ p _ (by simp) hp' (by decide) ⟨'[', [], rfl, by decide⟩
  · rw [lines_line _ _ _ (by decide), List.nil_append, scan.eq_def]
    simp only [if_true]
    refine scan_body_cut F es .second [] p' (Or.inr rfl) hw.1 hw.2 hp' ?_ ?_
    · intro h; apply h1; rw [h]
    · intro h; apply h2; rw [List.append_assoc, List.cons_append, h]

end Verif.CompileDb
