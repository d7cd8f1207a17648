import Verif.Depdb.Model

namespace Verif.Depdb

/-! ### Looking closed -/

def hasMark : Bytes → Bool
  | [] => false
  | [_] => false
  | b :: c :: r => (b == 10 && c == 0) || hasMark (c :: r)

theorem looksClosed_iff (f : Bytes) : LooksClosed f ↔ hasMark f = true := by
  constructor
  · rintro ⟨a, b, rfl⟩
    induction a with
    | nil => simp [hasMark]
    | cons x a ih =>
      cases a with
      | nil => simp_all [hasMark]
      | cons y a => simp_all [hasMark]
  · intro h
    induction f with
    | nil => simp [hasMark] at h
    | cons x f ih =>
      cases f with
      | nil => simp [hasMark] at h
      | cons y f =>
        simp only [hasMark, Bool.or_eq_true, Bool.and_eq_true, beq_iff_eq] at h
        rcases h with ⟨rfl, rfl⟩ | h
        · exact ⟨[], f, rfl⟩
        · obtain ⟨a, b, e⟩ := ih h
          exact ⟨x :: a, b, by rw [e]; rfl⟩

theorem hasMark_append (a b : Bytes) :
    hasMark (a ++ b) =
      (hasMark a || hasMark b || (a.getLast? == some 10 && b.head? == some 0)) := by
  induction a with
  | nil => simp [hasMark]
  | cons x a ih =>
    cases a with
    | nil =>
      cases b with
      | nil => simp [hasMark]
      | cons y b => simp [hasMark, Bool.or_comm]
    | cons y a =>
      simp only [List.cons_append, hasMark] at ih ⊢
      rw [ih]
      simp [List.getLast?_cons_cons, Bool.or_assoc]

theorem hasMark_no_nl (l : Bytes) (h : 10 ∉ l) : hasMark l = false := by
  induction l with
  | nil => rfl
  | cons x l ih =>
    cases l with
    | nil => rfl
    | cons y l =>
      simp only [List.mem_cons, not_or] at h
      have : (x == 10) = false := by simpa using fun e => h.1 e.symm
      simp only [hasMark, this, Bool.false_and, Bool.false_or]
      exact ih (by simp [h.2])

theorem no_mark_append_prefix (a p : Bytes) (ha : hasMark a = false)
    (hp : 10 ∉ p) (h0 : p.head? ≠ some 0) : hasMark (a ++ p) = false := by
  rw [hasMark_append, ha, hasMark_no_nl p hp]
  simp [h0]

theorem no_mark_append_nl (a : Bytes) (ha : hasMark a = false) : hasMark (a ++ [10]) = false := by
  rw [hasMark_append, ha]
  simp [hasMark]

theorem hasMark_enc (ls : List Bytes) (h : ∀ l ∈ ls, OkLine l) : hasMark (enc ls) = false := by
  induction ls with
  | nil => rfl
  | cons l ls ih =>
    have e : enc (l :: ls) = (l ++ [10]) ++ enc ls := by simp [enc]
    rw [e, hasMark_append, ih (fun x hx => h x (List.mem_cons_of_mem _ hx)),
      no_mark_append_nl _ (hasMark_no_nl _ (h l (List.mem_cons_self ..)).1)]
    have : (enc ls).head? ≠ some 0 := by
      cases ls with
      | nil => simp [enc]
      | cons x xs =>
        have hx := (h x (List.mem_cons_of_mem _ (List.mem_cons_self ..))).2
        cases x with
        | nil => simp [enc]
        | cons c x => simpa [enc] using hx
    simp [this]

/-! ### Encoding -/

theorem enc_append (a b : List Bytes) : enc (a ++ b) = enc a ++ enc b := by
  simp [enc]

theorem enc_singleton (l : Bytes) : enc [l] = l ++ [10] := by simp [enc]

theorem enc_nil : enc [] = [] := rfl

theorem enc_getLast (ls : List Bytes) (h : ls ≠ []) : (enc ls).getLast? = some 10 := by
  obtain ⟨init, last, rfl⟩ : ∃ i x, ls = i ++ [x] :=
    ⟨ls.dropLast, ls.getLast h, (List.dropLast_concat_getLast h).symm⟩
  rw [enc_append, enc_singleton, ← List.append_assoc]
  simp

/-! ### Splitting -/

theorem splitNl_append (l r : Bytes) (h : 10 ∉ l) : splitNl (l ++ 10 :: r) = some (l, r) := by
  induction l with
  | nil => simp [splitNl]
  | cons x l ih =>
    simp only [List.mem_cons, not_or] at h
    have : ¬ x = 10 := fun e => h.1 e.symm
    simp [splitNl, this, ih h.2]

theorem splitNl_some {f l r : Bytes} (h : splitNl f = some (l, r)) :
    f = l ++ 10 :: r ∧ 10 ∉ l := by
  induction f generalizing l r with
  | nil => simp [splitNl] at h
  | cons x f ih =>
    simp only [splitNl] at h
    split at h
    · rename_i hx
      simp at h; obtain ⟨rfl, rfl⟩ := h; simp [hx]
    · rename_i hx
      split at h
      · simp at h
      · rename_i l' r' he
        simp at h; obtain ⟨rfl, rfl⟩ := h
        obtain ⟨h1, h2⟩ := ih he
        refine ⟨by rw [h1]; rfl, ?_⟩
        simp only [List.mem_cons, not_or]
        exact ⟨fun e => hx e.symm, h2⟩

theorem splitNl_none {f : Bytes} (h : splitNl f = none) : 10 ∉ f := by
  induction f with
  | nil => simp
  | cons x f ih =>
    simp only [splitNl] at h
    split at h
    · simp at h
    · rename_i hx
      split at h
      · rename_i he
        simp only [List.mem_cons, not_or]
        exact ⟨fun e => hx e.symm, ih he⟩
      · simp at h

/-! ### The stored lines -/

theorem stored_line (cur l : Bytes) (r : Bytes) (h : 10 ∉ l) :
    stored cur (l ++ 10 :: r) =
      match r with
      | [] => ([], false)
      | c :: r' => if c = 0 then ([cur ++ l], true)
                   else ((cur ++ l) :: (stored [] (c :: r')).1, (stored [] (c :: r')).2) := by
  induction l generalizing cur with
  | nil =>
    cases r with
    | nil => simp [stored]
    | cons c r => simp [stored]
  | cons x l ih =>
    simp only [List.mem_cons, not_or] at h
    have hx : ¬ x = 10 := fun e => h.1 e.symm
    have e : ∃ y t, l ++ 10 :: r = y :: t := by
      cases l with
      | nil => exact ⟨_, _, rfl⟩
      | cons y l => exact ⟨_, _, rfl⟩
    obtain ⟨y, t, e⟩ := e
    have := ih (cur ++ [x]) h.2
    rw [e] at this
    simp only [List.cons_append, e, stored, hx, if_false]
    rw [this]
    simp

theorem stored_no_nl (cur f : Bytes) (h : 10 ∉ f) : stored cur f = ([], false) := by
  induction f generalizing cur with
  | nil => rfl
  | cons x f ih =>
    simp only [List.mem_cons, not_or] at h
    have hx : ¬ x = 10 := fun e => h.1 e.symm
    cases f with
    | nil => rfl
    | cons y f => simp only [stored, hx, if_false]; exact ih _ h.2

theorem stored_enc (ls : List Bytes) (hne : ls ≠ []) (h : ∀ l ∈ ls, OkLine l) (junk : Bytes) :
    stored [] (enc ls ++ 0 :: junk) = (ls, true) := by
  induction ls with
  | nil => exact absurd rfl hne
  | cons l ls ih =>
    have e : enc (l :: ls) ++ 0 :: junk = l ++ 10 :: (enc ls ++ 0 :: junk) := by simp [enc]
    rw [e, stored_line _ _ _ (h l (List.mem_cons_self ..)).1]
    cases ls with
    | nil => simp [enc]
    | cons x xs =>
      have ih' := ih (by simp) (fun y hy => h y (List.mem_cons_of_mem _ hy))
      have hx := (h x (List.mem_cons_of_mem _ (List.mem_cons_self ..))).2
      have : ∃ c t, enc (x :: xs) ++ 0 :: junk = c :: t ∧ c ≠ 0 := by
        cases x with
        | nil => exact ⟨10, _, rfl, by decide⟩
        | cons c x => exact ⟨c, _, rfl, by simpa using hx⟩
      obtain ⟨c, t, e1, hc⟩ := this
      rw [e1] at ih' ⊢
      simp [hc, ih']

/-! ### Writing -/

theorem put_end (d : Db) (b : UInt8) (h : d.w = d.file.length) :
    d.put b = { d with file := d.file ++ [b], hist := (d.file ++ [b]) :: d.hist,
                       w := d.w + 1 } := by
  unfold Db.put truncate Db.setFile
  simp [h]

theorem puts_end (d : Db) (bs : Bytes) (h : d.w = d.file.length) :
    d.puts bs = { d with
      file := d.file ++ bs
      hist := ((List.range bs.length).map (fun n => d.file ++ bs.take (n + 1))).reverse ++ d.hist
      w := d.w + bs.length } := by
  induction bs generalizing d with
  | nil => simp [Db.puts]
  | cons b bs ih =>
    simp only [Db.puts]
    rw [put_end d b h]
    rw [ih _ (by simp [h])]
    have : d.w + 1 + bs.length = d.w + (bs.length + 1) := by omega
    simp [this, List.range_succ_eq_map, Function.comp_def]

end Verif.Depdb
