import Verif.InSubst.Docs

/-!
# Substitutions in `.in` files: there is one way to read a file
-/

namespace Verif.InSubst

theorem escape_length (sym : Char) (n : Str) : n.length ≤ (escape sym n).length := by
  induction n with
  | nil => simp
  | cons c n ih => rw [escape_cons]; split <;> simp <;> omega

theorem escape_split {sym : Char} {n n' s s' : Str} (h : escape sym n ++ sym :: s = escape sym n' ++ sym :: s')
    (hs : s.head? ≠ some sym) (hs' : s'.head? ≠ some sym) : n = n' ∧ s = s' := by
  have h1 := find_strict_end (sym := sym) n (n.length + n'.length + 1) [] s hs (by omega)
  have h2 := find_strict_end (sym := sym) n' (n.length + n'.length + 1) [] s' hs' (by omega)
  rw [List.nil_append, h] at h1
  rw [List.nil_append, h1] at h2
  simp only [List.length_nil, List.nil_append, Prod.mk.injEq, Option.some.injEq, Nat.zero_add] at h2
  obtain ⟨h3, h4⟩ := List.append_inj h2.1 h2.2
  exact ⟨h3, by injection h4⟩

theorem escape_end {sym : Char} {n n' s : Str} (h : escape sym n ++ sym :: s = escape sym n')
    (hs : s.head? ≠ some sym) : False := by
  have h1 := find_strict_end (sym := sym) n (n.length + n'.length + 1) [] s hs (by omega)
  have h2 := find_strict_none (sym := sym) n' (n.length + n'.length + 1) [] (by omega)
  rw [List.nil_append, h] at h1
  rw [List.nil_append, h1] at h2
  simp at h2

theorem plain_split {sym : Char} {n n' s s' : Str} (h : n ++ sym :: s = n' ++ sym :: s')
    (hn : sym ∉ n) (hn' : sym ∉ n') : n = n' ∧ s = s' := by
  induction n generalizing n' with
  | nil =>
    cases n' with
    | nil => injection h with _ h; exact ⟨rfl, h⟩
    | cons c n' =>
      injection h with h _
      subst h
      simp at hn'
  | cons c n ih =>
    cases n' with
    | nil =>
      injection h with h _
      subst h
      simp at hn
    | cons c' n' =>
      injection h with h1 h2
      obtain ⟨h3, h4⟩ := ih h2 (fun hx => hn (by simp [hx])) (fun hx => hn' (by simp [hx]))
      exact ⟨by rw [h1, h3], h4⟩

theorem strict_unique {sym : Char} {s : Str} {gs : List Seg} {ok : Bool} (h : Strict sym s gs ok) :
    ∀ {s' : Str} {gs' : List Seg} {ok' : Bool}, Strict sym s' gs' ok' → s = s' → gs = gs' ∧ ok = ok' := by
  induction h with
  | nil =>
    intro s' gs' ok' h' hs
    cases h' <;> first | exact ⟨rfl, rfl⟩ | cases hs
  | @char c s gs ok hc _ ih =>
    intro s' gs' ok' h' hs
    cases h' with
    | nil => cases hs
    | char _ h =>
      injection hs with h1 h2
      obtain ⟨h3, h4⟩ := ih h h2
      exact ⟨by rw [h1, h3], h4⟩
    | escape => injection hs with h1 _; exact absurd h1 hc
    | sub => injection hs with h1 _; exact absurd h1 hc
    | unterminated => injection hs with h1 _; exact absurd h1 hc
  | @escape s gs ok hh _ ih =>
    intro s' gs' ok' h' hs
    cases h' with
    | nil => cases hs
    | char hc _ => injection hs with h1 _; exact absurd h1.symm hc
    | escape _ h =>
      injection hs with _ h2
      injection h2 with _ h2
      obtain ⟨h3, h4⟩ := ih h h2
      exact ⟨by rw [h3], h4⟩
    | @sub n s2 gs2 _ hn hh2 h =>
      injection hs with _ h2
      have := escape_split (n := []) (n' := n) h2 hh hh2
      exact absurd this.1.symm hn
    | @unterminated n =>
      injection hs with _ h2
      exact (escape_end (n := []) (n' := n) h2 hh).elim
  | @sub n s gs ok hn hh _ ih =>
    intro s' gs' ok' h' hs
    cases h' with
    | nil => cases hs
    | char hc _ => injection hs with h1 _; exact absurd h1.symm hc
    | escape hh2 h =>
      injection hs with _ h2
      have := escape_split (n := n) (n' := []) h2 hh hh2
      exact absurd this.1 hn
    | @sub n2 s2 gs2 _ hn2 hh2 h =>
      injection hs with _ h2
      obtain ⟨h3, h4⟩ := escape_split h2 hh hh2
      obtain ⟨h5, h6⟩ := ih h h4
      exact ⟨by rw [h3, h5], h6⟩
    | @unterminated n2 =>
      injection hs with _ h2
      exact (escape_end h2 hh).elim
  | @unterminated n =>
    intro s' gs' ok' h' hs
    cases h' with
    | nil => cases hs
    | char hc _ => injection hs with h1 _; exact absurd h1.symm hc
    | escape hh2 h =>
      injection hs with _ h2
      exact (escape_end (n := []) h2.symm hh2).elim
    | @sub n2 s2 gs2 _ hn2 hh2 h =>
      injection hs with _ h2
      exact (escape_end h2.symm hh2).elim
    | unterminated => exact ⟨rfl, rfl⟩

theorem lax_unique {sym : Char} {s : Str} {gs : List Seg} (h : Lax sym s gs) :
    ∀ {s' : Str} {gs' : List Seg}, Lax sym s' gs' → s = s' → gs = gs' := by
  induction h with
  | nil =>
    intro s' gs' h' hs
    cases h' <;> first | rfl | cases hs
  | @char c s gs hc _ ih =>
    intro s' gs' h' hs
    cases h' with
    | nil => cases hs
    | char _ h => injection hs with h1 h2; rw [h1, ih h h2]
    | double => injection hs with h1 _; exact absurd h1 hc
    | sub => injection hs with h1 _; exact absurd h1 hc
    | other => injection hs with h1 _; exact absurd h1 hc
    | unterminated => injection hs with h1 _; exact absurd h1 hc
  | @double s gs _ ih =>
    intro s' gs' h' hs
    cases h' with
    | nil => cases hs
    | char hc _ => injection hs with h1 _; exact absurd h1.symm hc
    | double h => injection hs with _ h2; rw [ih h h2]
    | @sub n s2 gs2 hn hm =>
      injection hs with _ h2
      have := plain_split (n := []) (n' := n) h2 (by simp) hm
      exact absurd this.1.symm hn
    | @other n s2 gs2 hn hm =>
      injection hs with _ h2
      have := plain_split (n := []) (n' := n) h2 (by simp) hm
      exact absurd this.1.symm hn
    | @unterminated s2 hm =>
      injection hs with _ h2
      exact absurd (by rw [← h2]; simp) hm
  | @sub n s gs hn hm hv _ ih =>
    intro s' gs' h' hs
    cases h' with
    | nil => cases hs
    | char hc _ => injection hs with h1 _; exact absurd h1.symm hc
    | double h =>
      injection hs with _ h2
      have := plain_split (n := n) (n' := []) h2 hm (by simp)
      exact absurd this.1 hn
    | @sub n2 s2 gs2 hn2 hm2 hv2 h =>
      injection hs with _ h2
      obtain ⟨h3, h4⟩ := plain_split h2 hm hm2
      rw [h3, ih h h4]
    | @other n2 s2 gs2 hn2 hm2 hv2 h =>
      injection hs with _ h2
      obtain ⟨h3, h4⟩ := plain_split h2 hm hm2
      exact absurd (h3 ▸ hv) hv2
    | @unterminated s2 hm2 =>
      injection hs with _ h2
      exact absurd (by rw [← h2]; simp) hm2
  | @other n s gs hn hm hv _ ih =>
    intro s' gs' h' hs
    cases h' with
    | nil => cases hs
    | char hc _ => injection hs with h1 _; exact absurd h1.symm hc
    | double h =>
      injection hs with _ h2
      have := plain_split (n := n) (n' := []) h2 hm (by simp)
      exact absurd this.1 hn
    | @sub n2 s2 gs2 hn2 hm2 hv2 h =>
      injection hs with _ h2
      obtain ⟨h3, h4⟩ := plain_split h2 hm hm2
      exact absurd (h3 ▸ hv2) hv
    | @other n2 s2 gs2 hn2 hm2 hv2 h =>
      injection hs with _ h2
      obtain ⟨h3, h4⟩ := plain_split h2 hm hm2
      rw [h3, ih h h4]
    | @unterminated s2 hm2 =>
      injection hs with _ h2
      exact absurd (by rw [← h2]; simp) hm2
  | @unterminated s hm =>
    intro s' gs' h' hs
    cases h' with
    | nil => cases hs
    | char hc _ => injection hs with h1 _; exact absurd h1.symm hc
    | double h => injection hs with _ h2; exact absurd (by rw [h2]; simp) hm
    | sub => injection hs with _ h2; exact absurd (by rw [h2]; simp) hm
    | other => injection hs with _ h2; exact absurd (by rw [h2]; simp) hm
    | unterminated => injection hs with _ h2; rw [h2]

theorem reads_unique {strict : Bool} {sym : Char} {s : Str} {gs gs' : List Seg} {ok ok' : Bool}
    (h : Reads strict sym s gs ok) (h' : Reads strict sym s gs' ok') : gs = gs' ∧ ok = ok' := by
  unfold Reads at h h'
  cases strict with
  | true =>
    rw [if_pos rfl] at h h'
    exact strict_unique h h' rfl
  | false =>
    rw [if_neg (by simp)] at h h'
    exact ⟨lax_unique h.1 h'.1 rfl, by rw [h.2, h'.2]⟩

theorem doc_unique {strict : Bool} {sym : Char} {ls : List Line} {d : List (List Seg × Eol)} {ok : Bool}
    (h : Doc strict sym ls d ok) : ∀ {d' : List (List Seg × Eol)} {ok' : Bool}, Doc strict sym ls d' ok' →
    d = d' ∧ ok = ok' := by
  induction h with
  | nil => intro d' ok' h'; cases h'; exact ⟨rfl, rfl⟩
  | line hg _ ih =>
    intro d' ok' h'
    cases h' with
    | line hg' hd' =>
      obtain ⟨h1, h2⟩ := ih hd'
      rw [(reads_unique hg hg').1, h1]
      exact ⟨rfl, h2⟩
    | bad hg' => exact absurd (reads_unique hg hg').2 (by simp)
  | bad hg =>
    intro d' ok' h'
    cases h' with
    | line hg' _ => exact absurd (reads_unique hg hg').2 (by simp)
    | bad hg' => rw [(reads_unique hg hg').1]; exact ⟨rfl, rfl⟩

theorem raw_inj {l l' : Line} (h : l.eol = .lf → l.text.getLast? ≠ some '\r')
    (h' : l'.eol = .lf → l'.text.getLast? ≠ some '\r') (he : l.raw = l'.raw) : l = l' := by
  obtain ⟨h1, h2⟩ := raw_strip l h
  obtain ⟨h3, h4⟩ := raw_strip l' h'
  rw [he] at h1 h2
  have ht : l.text = l'.text := h1.symm.trans h3
  have hx : l.eol.str = l'.eol.str := h2.symm.trans h4
  obtain ⟨t, n⟩ := l
  obtain ⟨t', n'⟩ := l'
  cases ht
  cases n <;> cases n' <;> first | rfl | cases hx

theorem lines_unique {s : Str} {ls ls' : List Line} (h : Lines s ls) (h' : Lines s ls') : ls = ls' := by
  obtain ⟨h1, h2⟩ := getlines_lines h
  obtain ⟨h3, h4⟩ := getlines_lines h'
  have he : ls.map Line.raw = ls'.map Line.raw := h1.symm.trans h3
  clear h h' h1 h3
  induction ls generalizing ls' with
  | nil =>
    cases ls' with
    | nil => rfl
    | cons => cases he
  | cons l ls ih =>
    cases ls' with
    | nil => cases he
    | cons l' ls' =>
      simp only [List.map_cons, List.cons.injEq] at he
      rw [raw_inj (h2 l (by simp)) (h4 l' (by simp)) he.1,
        ih (fun x hx => h2 x (by simp [hx])) (fun x hx => h4 x (by simp [hx])) he.2]

theorem source_unique {strict : Bool} {sym : Char} {s : Str} {d d' : List (List Seg × Eol)} {ok ok' : Bool}
    (h : Source strict sym s d ok) (h' : Source strict sym s d' ok') : d = d' ∧ ok = ok' := by
  obtain ⟨ls, h1, h2⟩ := h
  obtain ⟨ls', h3, h4⟩ := h'
  cases lines_unique h1 h3
  exact doc_unique h2 h4

end Verif.InSubst
