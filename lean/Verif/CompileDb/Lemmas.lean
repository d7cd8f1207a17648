import Verif.CompileDb.World
import Verif.CompileDb.Text
/-!
# The compilation database: lemmas about builds
-/

namespace Verif.CompileDb

section
variable {O C : Type} [DecidableEq O]

theorem find_cons (x : O × Entry) (db : List (O × Entry)) (o : O) :
    find (x :: db) o = if x.1 = o then some x.2 else find db o := by
  unfold find
  rw [List.find?_cons]
  by_cases h : x.1 = o
  · simp [h]
  · simp [h]

theorem find_nil (o : O) : find ([] : List (O × Entry)) o = none := rfl

theorem find_upd (db : List (O × Entry)) (o : O) (e : Entry) (x : O) :
    find (upd db o e) x = if x = o then (find db o).map (fun _ => e) else find db x := by
  induction db with
  | nil => by_cases h : x = o <;> simp [upd, find_nil, h]
  | cons y db ih =>
    have : upd (y :: db) o e = (if y.1 = o then (y.1, e) else y) :: upd db o e := rfl
    rw [this, find_cons, find_cons, find_cons, ih]
    by_cases hy : y.1 = o
    · rw [if_pos hy]
      by_cases hx : x = o
      · subst hx
        simp [hy]
      · have : ¬ y.1 = x := fun h => hx (by rw [← h, hy])
        simp [hx, this]
    · rw [if_neg hy]
      by_cases hx : x = o
      · subst hx
        simp [hy]
      · simp [hx]

theorem find_concat (db : List (O × Entry)) (o : O) (e : Entry) (h : find db o = none) (x : O) :
    find (db ++ [(o, e)]) x = if x = o then some e else find db x := by
  induction db with
  | nil =>
    rw [List.nil_append, find_cons]
    by_cases hx : x = o
    · simp [hx]
    · have : ¬ o = x := fun h => hx h.symm
      simp [hx, this]
  | cons y db ih =>
    rw [find_cons] at h
    by_cases hy : y.1 = o
    · rw [if_pos hy] at h; cases h
    · rw [if_neg hy] at h
      rw [List.cons_append, find_cons, ih h, find_cons]
      by_cases hx : x = o
      · subst hx; simp [hy]
      · simp [hx]

theorem find_map (db : List (O × Entry)) (f : Entry → Entry) (o : O) :
    find (db.map fun x => (x.1, f x.2)) o = (find db o).map f := by
  induction db with
  | nil => rfl
  | cons y db ih =>
    rw [List.map_cons, find_cons, find_cons, ih]
    by_cases h : y.1 = o <;> simp [h]

theorem find_none_iff (db : List (O × Entry)) (o : O) :
    find db o = none ↔ o ∉ db.map (·.1) := by
  induction db with
  | nil => simp [find_nil]
  | cons y db ih =>
    rw [find_cons]
    by_cases h : y.1 = o
    · simp [h]
    · have : ¬ o = y.1 := fun e => h e.symm
      simp only [if_neg h, ih, List.map_cons, List.mem_cons, this, false_or]

theorem find_filter (db : List (O × Entry)) (hn : (db.map (·.1)).Nodup) (q : O × Entry → Bool)
    (o : O) : find (db.filter q) o = (find db o).bind fun e => if q (o, e) then some e else none := by
  induction db with
  | nil => rfl
  | cons y db ih =>
    rw [List.map_cons, List.nodup_cons] at hn
    rw [List.filter_cons, find_cons]
    by_cases h : y.1 = o
    · have hy : y = (o, y.2) := by rw [← h]
      rw [if_pos h, Option.bind_some, ← hy]
      by_cases hq : q y = true
      · rw [if_pos hq, if_pos hq, find_cons, if_pos h]
      · rw [if_neg hq, if_neg hq, ih hn.2]
        have : find db o = none := by
          rw [find_none_iff, ← h]
          exact hn.1
        rw [this]
        rfl
    · rw [if_neg h]
      by_cases hq : q y = true
      · rw [if_pos hq, find_cons, if_neg h, ih hn.2]
      · rw [if_neg hq, ih hn.2]

theorem find_mem {db : List (O × Entry)} (hn : (db.map (·.1)).Nodup) {x : O × Entry}
    (hx : x ∈ db) : find db x.1 = some x.2 := by
  induction db with
  | nil => cases hx
  | cons y db ih =>
    rw [List.map_cons, List.nodup_cons] at hn
    rw [find_cons]
    rcases List.mem_cons.mp hx with rfl | hx
    · rw [if_pos rfl]
    · have : ¬ y.1 = x.1 := fun h => hn.1 (by rw [h]; exact List.mem_map_of_mem hx)
      rw [if_neg this]
      exact ih hn.2 hx

theorem mem_of_find {db : List (O × Entry)} {o : O} {e : Entry} (h : find db o = some e) :
    (o, e) ∈ db := by
  induction db with
  | nil => cases h
  | cons y db ih =>
    rw [find_cons] at h
    by_cases hy : y.1 = o
    · rw [if_pos hy] at h
      injection h with h
      rw [← h, ← hy]
      simp
    · rw [if_neg hy] at h
      exact List.mem_cons_of_mem _ (ih h)

theorem keys_upd (db : List (O × Entry)) (o : O) (e : Entry) :
    (upd db o e).map (·.1) = db.map (·.1) := by
  unfold upd
  rw [List.map_map]
  apply List.map_congr_left
  intro x _
  simp only [Function.comp]
  split <;> rfl

theorem look_cons (x : O × Line) (es : List (O × Line)) (o : O) :
    look (x :: es) o = if x.1 = o then some x.2 else look es o := by
  unfold look
  rw [List.find?_cons]
  by_cases h : x.1 = o
  · simp [h]
  · simp [h]

theorem look_map (db : List (O × Entry)) (o : O) :
    look (db.map fun x => (x.1, x.2.json)) o = (find db o).map Entry.json := by
  induction db with
  | nil => rfl
  | cons y db ih =>
    rw [List.map_cons, look_cons, find_cons, ih]
    by_cases h : y.1 = o <;> simp [h]

theorem find_loaded (es : List (O × Line)) (o : O) :
    find (es.map fun e => (e.1, (⟨.absent, e.2⟩ : Entry))) o =
      (look es o).map fun l => ⟨.absent, l⟩ := by
  induction es with
  | nil => rfl
  | cons y es ih =>
    rw [List.map_cons, look_cons, find_cons, ih]
    by_cases h : y.1 = o <;> simp [h]

theorem look_mem {es : List (O × Line)} {o : O} {l : Line} (h : look es o = some l) :
    (o, l) ∈ es := by
  induction es with
  | nil => cases h
  | cons y es ih =>
    rw [look_cons] at h
    by_cases hy : y.1 = o
    · rw [if_pos hy] at h
      injection h with h
      rw [← h, ← hy]
      simp
    · rw [if_neg hy] at h
      exact List.mem_cons_of_mem _ (ih h)

/-! ## Counting -/

/-- How many are absent. -/
def cnt (db : List (O × Entry)) : Nat := db.countP fun x => x.2.status = .absent

/-- One if it is absent. -/
def one (e : Entry) : Nat := if e.status = .absent then 1 else 0

omit [DecidableEq O] in
theorem cnt_cons (x : O × Entry) (db : List (O × Entry)) : cnt (x :: db) = cnt db + one x.2 := by
  unfold cnt one
  rw [List.countP_cons]
  by_cases h : x.2.status = .absent <;> simp [h]

theorem cnt_upd {db : List (O × Entry)} (hn : (db.map (·.1)).Nodup) {o : O} {e : Entry}
    (h : find db o = some e) (e' : Entry) : cnt (upd db o e') + one e = cnt db + one e' := by
  induction db with
  | nil => cases h
  | cons y db ih =>
    rw [List.map_cons, List.nodup_cons] at hn
    have hu : upd (y :: db) o e' = (if y.1 = o then (y.1, e') else y) :: upd db o e' := rfl
    rw [find_cons] at h
    rw [hu, cnt_cons, cnt_cons]
    by_cases hy : y.1 = o
    · rw [if_pos hy] at h
      injection h with h
      rw [if_pos hy]
      have : upd db o e' = db := by
        unfold upd
        have : db.map (fun x => if x.1 = o then (x.1, e') else x) = db.map id := by
          apply List.map_congr_left
          intro x hx
          rw [if_neg]
          · rfl
          · intro hxo
            apply hn.1
            rw [hy, ← hxo]
            exact List.mem_map_of_mem hx
        rw [this, List.map_id]
      rw [this, ← h]
      simp only
      omega
    · rw [if_neg hy] at h
      rw [if_neg hy]
      have := ih hn.2 h
      omega

omit [DecidableEq O] in
theorem cnt_concat (db : List (O × Entry)) (o : O) (j : Line) :
    cnt (db ++ [(o, ⟨.missing, j⟩)]) = cnt db := by
  unfold cnt
  rw [List.countP_append]
  simp

omit [DecidableEq O] in
theorem cnt_filter (db : List (O × Entry)) (q : O × Entry → Bool)
    (hq : ∀ x, q x = true → x.2.status = .absent) :
    cnt (db.filter fun x => !q x) + db.length = cnt db + (db.filter fun x => !q x).length := by
  induction db with
  | nil => rfl
  | cons y db ih =>
    rw [List.filter_cons]
    by_cases h : q y = true
    · rw [if_neg (by simp [h]), cnt_cons, List.length_cons]
      have : one y.2 = 1 := by unfold one; rw [if_pos (hq y h)]
      omega
    · rw [if_pos (by simp [h]), cnt_cons, cnt_cons, List.length_cons, List.length_cons]
      omega

omit [DecidableEq O] in
theorem cnt_settle (db : List (O × Entry)) (p : Post O) :
    cnt (db.map fun x => (x.1, settle p x.2)) = cnt db + (if p.nested || p.duringLoad then 0 else
      (db.filter fun x => x.2.status = .present ∨ x.2.status = .changed).length) := by
  induction db with
  | nil => cases p.nested || p.duringLoad <;> rfl
  | cons y db ih =>
    rw [List.map_cons, cnt_cons, cnt_cons, List.filter_cons, ih]
    obtain ⟨o, st, j⟩ := y
    cases hb : (p.nested || p.duringLoad) with
    | true =>
      simp only [if_true]
      cases st <;> simp [settle, one, hb]
    | false =>
      simp only [Bool.false_eq_true, if_false]
      cases st <;> simp [settle, one, hb] <;> omega

omit [DecidableEq O] in
theorem cnt_zero {db : List (O × Entry)} (h : cnt db = 0) {x : O × Entry} (hx : x ∈ db) :
    x.2.status ≠ .absent := by
  unfold cnt at h
  rw [List.countP_eq_zero] at h
  simpa using h x hx

end

/-! ## The invariant -/

variable {O C : Type} [DecidableEq O]

/-- What the file has is what the dependency databases say. -/
def Consistent (F : Format O C) (w : World O C) (disk : List (O × Line)) : Prop :=
  ∀ o j, look disk o = some j → ∀ c, w.dep o = some c → j = F.js o c

/-- An output, its entry and its line in the file. -/
def EntryOk (F : Format O C) (w : World O C) (disk : List (O × Line)) (o : O) :
    Option Entry → Prop
  | none => look disk o = none ∧ o ∉ w.seen ∧ o ∉ w.forced ∧ o ∉ w.owed
  | some ⟨.absent, j⟩ => look disk o = some j ∧ o ∉ w.seen ∧ o ∉ w.forced ∧ o ∉ w.owed ∧
      ∀ c, w.dep o = some c → j = F.js o c
  | some ⟨.present, j⟩ => look disk o = some j ∧ o ∈ w.seen ∧ o ∉ w.forced ∧ o ∉ w.owed ∧
      w.dep o = some (w.want o) ∧ j = F.js o (w.want o)
  | some ⟨.changed, j⟩ => o ∈ w.seen ∧ w.dep o = some (w.want o) ∧ w.cdb.changed = true ∧
      ((o ∈ w.done ∧ j = F.js o (w.want o) ∧ (o ∈ w.owed ∨ look disk o = none)) ∨
       (o ∉ w.done ∧ o ∈ w.owed ∧ o ∉ w.forced ∧ look disk o = some j))
  | some ⟨.missing, _⟩ => o ∈ w.seen ∧ o ∈ w.forced ∧ o ∉ w.done ∧ look disk o = none ∧
      w.dep o = some (w.want o) ∧ w.cdb.changed = true

/-- What holds in each state. -/
def StateOk (F : Format O C) (w : World O C) (disk : List (O × Line)) : State → Prop
  | .closed => w.cdb.db = [] ∧ w.cdb.nesting = 0 ∧ w.seen = [] ∧ w.owed = [] ∧ w.forced = [] ∧
      w.done = [] ∧ Consistent F w disk
  | .open => (w.cdb.db.map (·.1)).Nodup ∧ w.cdb.absent = cnt w.cdb.db ∧
      (∀ o, EntryOk F w disk o (find w.cdb.db o)) ∧
      (w.cdb.changed = true → w.owed ≠ [] ∨ w.forced ≠ []) ∧
      (w.cdb.nesting = 0 → w.owed = [] ∧ w.forced = [] ∧ w.done = []) ∧
      ∀ o ∈ w.done, o ∈ w.seen
  | .failed => Consistent F w disk

/-- The file has these entries. -/
def Disk (F : Format O C) (w : World O C) (disk : List (O × Line)) : Prop :=
  ((w.cdb.file = none ∧ disk = []) ∨ w.cdb.file = some (render disk)) ∧ Written F disk

def Inv (F : Format O C) (w : World O C) : Prop :=
  ∃ disk, Disk F w disk ∧ StateOk F w disk w.cdb.state

theorem onDisk_eq {F : Format O C} {w : World O C} {disk : List (O × Line)} (h : Disk F w disk)
    (o : O) : onDisk F w o = look disk o := by
  unfold onDisk
  obtain ⟨h1 | h1, h2⟩ := h
  · rw [h1.1, h1.2]; rfl
  · rw [h1]
    simp only
    rw [load_rendered F disk h2]
    rfl

theorem inv_init (F : Format O C) (want : O → C) : Inv F (World.init want) :=
  ⟨[], ⟨Or.inl ⟨rfl, rfl⟩, by simp [Written]⟩, rfl, rfl, rfl, rfl, rfl, rfl, fun _ _ h => by cases h⟩

/-- What has been found to have changed is in the file only as it was. -/
theorem consistent_of_open {F : Format O C} {w : World O C} {disk : List (O × Line)}
    (h : ∀ o, EntryOk F w disk o (find w.cdb.db o)) (ho : w.owed = []) : Consistent F w disk := by
  intro o j hj c hc
  have := h o
  cases hf : find w.cdb.db o with
  | none => rw [hf] at this; rw [this.1] at hj; cases hj
  | some e =>
    obtain ⟨st, j'⟩ := e
    rw [hf] at this
    cases st with
    | absent =>
      obtain ⟨h1, -, -, -, h2⟩ := this
      rw [h1] at hj
      injection hj with hj
      rw [← hj]
      exact h2 c hc
    | present =>
      obtain ⟨h1, -, -, -, h2, h3⟩ := this
      rw [h1] at hj
      injection hj with hj
      rw [h2] at hc
      injection hc with hc
      rw [← hj, ← hc]
      exact h3
    | changed =>
      obtain ⟨-, -, -, ⟨-, -, h1 | h1⟩ | ⟨-, h1, -, -⟩⟩ := this
      · rw [ho] at h1; cases h1
      · rw [h1] at hj; cases hj
      · rw [ho] at h1; cases h1
    | missing =>
      obtain ⟨-, -, -, h1, -⟩ := this
      rw [h1] at hj
      cases hj

end Verif.CompileDb
