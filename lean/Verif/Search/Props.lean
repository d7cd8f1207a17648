import Verif.Search.Lemmas

/-!
# What target a prerequisite refers to: properties

C71: the target that a prerequisite refers to does not depend on the order in which threads search.
-/

namespace Verif.Search

/-- C71: a prerequisite refers to one target. -/
theorem refers_unique (ks : List Key) (files source : Path → Prop) (p : Pre) (a b : Option Id)
    (ha : Refers ks files source p a) (hb : Refers ks files source p b) : a = b := by
  cases ha with
  | declared h =>
    cases hb with
    | declared => rfl
    | declaredSrc k => exact absurd h k
    | existing k => exact absurd h k
    | new k => exact absurd h k
    | error k => exact absurd h k
  | declaredSrc h1 h2 h3 =>
    cases hb with
    | declared k => exact absurd k h1
    | declaredSrc _ k2 => rw [InSrc.unique h2 k2]
    | existing _ k => exact absurd h3 (k _ h2)
    | new _ k => exact absurd h3 (k _ h2)
    | error _ k => exact absurd h3 (k _ h2)
  | existing h1 h2 h3 =>
    cases hb with
    | declared k => exact absurd k h1
    | declaredSrc _ k2 k3 => exact absurd k3 (h2 _ k2)
    | existing _ _ k => rw [Existing.unique h3 k]
    | new _ _ k => exact absurd h3 (k _)
    | error _ _ k => exact absurd h3 (k _)
  | new h1 h2 h3 h4 =>
    cases hb with
    | declared => rfl
    | declaredSrc _ k2 k3 => exact absurd k3 (h2 _ k2)
    | existing _ _ k => exact absurd k (h3 _)
    | new => rfl
    | error _ _ _ k => exact absurd h4 k
  | error h1 h2 h3 h4 =>
    cases hb with
    | declared k => exact absurd k h1
    | declaredSrc _ k2 k3 => exact absurd k3 (h2 _ k2)
    | existing _ _ k => exact absurd k (h3 _)
    | new _ _ _ k => exact absurd k h4
    | error => rfl

section

variable {ks : List Key} {ps : List Pre} {exist onlySrc : Path → Bool}

/-- C71 (partial): if references are consistent, then with any number of threads and any
interleaving, a search finds the target that the prerequisite refers to given what is declared, or
fails if there is none. -/
theorem search_partial (hc : Consistent ks (exist · = true) (onlySrc · = true) ps) (s : State)
    (hr : Reach ks ps exist onlySrc s) (p : Pre) (r : Option Nat) (hd : (p, r) ∈ s.done) :
    ∃ a, Refers ks (exist · = true) (onlySrc · = true) p a ∧
      (r = none ↔ a = none) ∧
      ∀ t, r = some t → ∃ o, s.objs[t]? = some o ∧ a = some o.id := by
  obtain ⟨E, hE⟩ := hc.ext
  have hi := Inv.reach hc hE hr
  cases r with
  | none => exact ⟨none, hi.failed _ hd rfl, by simp, fun t h => by cases h⟩
  | some t =>
    obtain ⟨o, h1, h2⟩ := hi.found _ hd t rfl
    exact ⟨some o.id, h2, by simp, fun t' h => by cases h; exact ⟨o, h1, rfl⟩⟩

/-- C71 (partial): so it is the same in any two executions. -/
theorem search_same_partial (hc : Consistent ks (exist · = true) (onlySrc · = true) ps)
    (s s' : State) (hr : Reach ks ps exist onlySrc s) (hr' : Reach ks ps exist onlySrc s') (p : Pre)
    (t t' : Nat) (hd : (p, some t) ∈ s.done) (hd' : (p, some t') ∈ s'.done) :
    ∃ o o', s.objs[t]? = some o ∧ s'.objs[t']? = some o' ∧ o.id = o'.id := by
  obtain ⟨a, h1, _, h2⟩ := search_partial hc s hr p _ hd
  obtain ⟨a', h1', _, h2'⟩ := search_partial hc s' hr' p _ hd'
  obtain ⟨o, h3, h4⟩ := h2 t rfl
  obtain ⟨o', h3', h4'⟩ := h2' t' rfl
  have := refers_unique _ _ _ _ _ _ h1 h1'
  rw [h4, h4'] at this
  injection this with this
  exact ⟨o, o', h3, h3', this⟩

/-- C71 (partial): and it is the same object for all references to it. -/
theorem search_object_partial (hc : Consistent ks (exist · = true) (onlySrc · = true) ps)
    (s : State) (hr : Reach ks ps exist onlySrc s) (p q : Pre) (t t' : Nat)
    (hd : (p, some t) ∈ s.done) (hd' : (q, some t') ∈ s.done) (i : Id)
    (hp : Refers ks (exist · = true) (onlySrc · = true) p (some i))
    (hq : Refers ks (exist · = true) (onlySrc · = true) q (some i)) : t = t' := by
  obtain ⟨E, hE⟩ := hc.ext
  have hi := Inv.reach hc hE hr
  obtain ⟨o, h1, h2⟩ := hi.found _ hd t rfl
  obtain ⟨o', h1', h2'⟩ := hi.found _ hd' t' rfl
  have e := refers_unique _ _ _ _ _ _ h2 hp
  have e' := refers_unique _ _ _ _ _ _ h2' hq
  obtain ⟨ht, _⟩ := List.getElem?_eq_some_iff.1 h1
  refine (List.getElem?_inj (i := t) (j := t') (l := s.objs.map Key.id) (by simpa using ht)
    hi.nodup).1 ?_
  rw [List.getElem?_map, List.getElem?_map, h1, h1']
  exact e.trans e'.symm

/-- C71: whatever the references, nothing new comes into existence in the source tree: a target
that is not declared is for a file that exists there, or is where new targets can be. -/
theorem nothing_else (s : State) (hr : Reach ks ps exist onlySrc s) (i : Id)
    (hi : i ∈ s.objs.map Key.id) :
    i ∈ ks.map Key.id ∨ ∃ p : Pre, (∃ k, p.Existing (exist · = true) k ∧ k.id = i) ∨
      (p.New (onlySrc · = true) ∧ p.here = i) := by
  induction hr with
  | init => exact .inl hi
  | step hr hs ih =>
    have app : ∀ {s : State} {k : Key}, i ∈ (s.objs ++ [k]).map Key.id → i ∈ s.objs.map Key.id ∨ k.id = i := by
      intro s k h
      rw [List.map_append] at h
      rcases List.mem_append.1 h with h | h
      · exact .inl h
      · simp only [List.map_cons, List.map_nil, List.mem_singleton] at h
        exact .inr h.symm
    cases hs with
    | call => exact ih hi
    | firstMissed => exact ih hi
    | secondMissed => exact ih hi
    | fileMissed => exact ih hi
    | newFailed => exact ih hi
    | firstFound => exact ih (by rw [← setExt_ids]; exact hi)
    | secondFound => exact ih (by rw [← setExt_ids]; exact hi)
    | fileFound => exact ih (by rw [← setExt_ids]; exact hi)
    | newFound => exact ih (by rw [← setExt_ids]; exact hi)
    | fileInsert h1 h2 h3 =>
      rcases app hi with h | h
      · exact ih h
      · exact .inr ⟨_, .inl ⟨_, fileKey_some h2, h⟩⟩
    | newInsert h1 h2 h3 =>
      rcases app hi with h | h
      · exact ih h
      · obtain ⟨h4, rfl⟩ := newKey_some h2
        exact .inr ⟨_, .inr ⟨h4, h⟩⟩

/-- What is left to do. -/
def steps : Pc → Nat
  | .idle => 0
  | .first _ => 4
  | .second _ _ => 3
  | .file _ => 2
  | .new _ => 1

/-- C71: a search never waits: there is a next step, and each one is one of at most four. -/
theorem search_ends (s : State) (i : Nat) (hi : steps (s.pc i) ≠ 0) :
    (∃ s', Step ps exist onlySrc i s s') ∧
    (∀ s', Step ps exist onlySrc i s s' → steps (s'.pc i) < steps (s.pc i)) ∧
    ∀ j s', j ≠ i → Step ps exist onlySrc j s s' → s'.pc i = s.pc i := by
  have hit : ∀ k : Key, (∃ (t : Nat) (o : Key), s.objs[t]? = some o ∧ keyEq o k = true) ∨
      ∀ o ∈ s.objs, keyEq o k = false := by
    intro k
    by_cases h : ∃ o ∈ s.objs, keyEq o k = true
    · obtain ⟨o, h1, h2⟩ := h
      obtain ⟨t, ht⟩ := List.getElem?_of_mem h1
      exact .inl ⟨t, o, ht, h2⟩
    · refine .inr fun o ho => ?_
      cases hk : keyEq o k with
      | false => rfl
      | true => exact absurd ⟨o, ho, hk⟩ h
  refine ⟨?_, ?_, ?_⟩
  · cases hp : s.pc i with
    | idle => rw [hp] at hi; exact absurd rfl hi
    | first p =>
      rcases hit (firstKey p) with ⟨t, o, h1, h2⟩ | h
      · exact ⟨_, .firstFound hp h1 h2⟩
      · exact ⟨_, .firstMissed hp h⟩
    | second p k =>
      rcases hit k with ⟨t, o, h1, h2⟩ | h
      · exact ⟨_, .secondFound hp h1 h2⟩
      · exact ⟨_, .secondMissed hp h⟩
    | file p =>
      cases hk : fileKey exist p with
      | none => exact ⟨_, .fileMissed hp hk⟩
      | some k =>
        rcases hit k with ⟨t, o, h1, h2⟩ | h
        · exact ⟨_, .fileFound hp hk h1 h2⟩
        · exact ⟨_, .fileInsert hp hk h⟩
    | new p =>
      cases hk : newKey onlySrc p with
      | none => exact ⟨_, .newFailed hp hk⟩
      | some k =>
        rcases hit k with ⟨t, o, h1, h2⟩ | h
        · exact ⟨_, .newFound hp hk h1 h2⟩
        · exact ⟨_, .newInsert hp hk h⟩
  · intro s' hs
    cases hs with
    | call h => rw [h] at hi; exact absurd rfl hi
    | firstMissed h =>
      simp only [setPc, if_pos, h, afterFirst]
      split <;> simp [steps]
    | firstFound h => simp [finish, setPc, h, steps]
    | secondFound h => simp [finish, setPc, h, steps]
    | secondMissed h => simp [setPc, h, steps]
    | fileInsert h => simp [finish, setPc, h, steps]
    | fileFound h => simp [finish, setPc, h, steps]
    | fileMissed h => simp [setPc, h, steps]
    | newInsert h => simp [finish, setPc, h, steps]
    | newFound h => simp [finish, setPc, h, steps]
    | newFailed h => simp [finish, setPc, h, steps]
  · intro j s' hj hs
    cases hs <;> simp [finish, setPc, Ne.symm hj]

end

/-! ## The common case -/

theorem existing_iff {files : Path → Prop} {p : Pre} (ho : p.out = none) (k : Key) :
    p.Existing files k ↔ ∃ l e, p.type.file = true ∧ p.dir.from p.scope.src = p.scope.rootSrc ++ l ∧
      p.ext.or p.defaultExt = some e ∧ files (p.scope.rootSrc ++ l ++ [fileName p.name e]) ∧
      k = ⟨⟨p.type, p.scope.rootSrc ++ l,
        if p.scope.out = p.scope.src then none else some (p.scope.rootOut ++ l), p.name⟩, some e⟩ := by
  constructor
  · intro h
    cases h with
    | found h1 h2 h3 h4 h5 => exact ⟨_, _, h1, h3, h4, h5, rfl⟩
    | foundAt h1 h2 => rw [ho] at h2; cases h2
  · rintro ⟨l, e, h1, h2, h3, h4, rfl⟩
    exact .found h1 ho h2 h3 h4

/-- C71: references in the common case are consistent. -/
theorem tidy_consistent (ks : List Key) (files source : Path → Prop) (ps : List Pre)
    (rootOut rootSrc : Path) (ht : Tidy ks files source ps rootOut rootSrc) :
    Consistent ks files source ps := by
  refine ⟨ht.ext, ht.declared, fun p hp q hq i hR hi => ?_⟩
  obtain ⟨E, hE1, hE2, hE3, hE4⟩ := ht.ext
  obtain ⟨hpo, hps, hpn⟩ := ht.project p hp
  obtain ⟨hqo, hqs, hqn⟩ := ht.project q hq
  have outeq : ∀ r : Pre, r.scope.rootOut = rootOut → r.scope.rootSrc = rootSrc →
      (r.scope.out = r.scope.src ↔ rootOut = rootSrc) := by
    intro r h1 h2
    rw [Scope.out, Scope.src, h1, h2]
    exact ⟨fun h => List.append_cancel_right h, fun h => by rw [h]⟩
  have notdecl : ∀ {j}, (∃ k ∈ ks, k.id = j) → j ∈ ks.map Key.id := by
    rintro j ⟨k, h1, h2⟩; exact List.mem_map.2 ⟨k, h1, h2⟩
  -- Where p is.
  obtain ⟨lp, hlp⟩ : ∃ l, p.dir.from p.scope.src = rootSrc ++ l := by
    rcases ht.dir p hp with ⟨r, l, h1, h2⟩ | ⟨l, h1, _⟩
    · exact ⟨l, by rw [h1, Dir.from, Scope.src, h2, hps]⟩
    · exact ⟨l, by rw [h1, Dir.from]⟩
  -- If there is a file for q, then there is one for p at the same place.
  have file : ∀ kq, q.Existing files kq → p.type = q.type → p.name = q.name →
      p.dir.from p.scope.src = q.dir.from q.scope.src → ∃ k, p.Existing files k ∧ k.id = kq.id := by
    intro kq hk h1 h2 h3
    obtain ⟨l, e, k1, k2, k3, k4, rfl⟩ := (existing_iff hqn kq).1 hk
    refine ⟨_, (existing_iff hpn _).2 ⟨l, e, by rw [h1]; exact k1, ?_, ?_, ?_, rfl⟩, ?_⟩
    · rw [h3, k2, hps, hqs]
    · rw [ht.same p hp q hq h1 h2 h3, k3]
    · rw [hps, h2]; rw [hqs] at k4; exact k4
    · have e1 : (p.scope.out = p.scope.src) = (q.scope.out = q.scope.src) :=
        propext ((outeq p hpo hps).trans (outeq q hqo hqs).symm)
      dsimp only
      simp only [h1, h2, hps, hqs, hpo, hqo, e1]
  constructor
  · intro hx
    subst hx
    have hn : ¬ Declared ks p p.here := fun ⟨k, h1, h2, _⟩ => hi (notdecl ⟨k, h1, h2⟩)
    generalize hI : p.here = I at hR hi hn
    generalize hA : some I = A at hR
    cases hR with
    | declared h => obtain ⟨k, h1, h2, _⟩ := h; cases hA; exact absurd (notdecl ⟨k, h1, h2⟩) hi
    | declaredSrc _ _ h => obtain ⟨k, h1, h2, _⟩ := h; cases hA; exact absurd (notdecl ⟨k, h1, h2⟩) hi
    | error => cases hA
    | @existing kq h1 h2 h3 =>
      injection hA with hA
      obtain ⟨l, e, k1, k2, k3, k4, hk⟩ := (existing_iff hqn kq).1 h3
      have hout : I.out = none := by rw [← hI, Pre.here, hpn]
      have hs : q.scope.out = q.scope.src := by
        apply Classical.byContradiction
        intro h
        rw [hA, hk] at hout
        dsimp only at hout
        rw [if_neg h] at hout
        cases hout
      have hroot := (outeq q hqo hqs).1 hs
      have hps' := (outeq p hpo hps).2 hroot
      have ty : p.type = q.type := by
        have := congrArg Id.type (hI.trans hA); rw [Pre.here, hpn, hk] at this; exact this
      have nm : p.name = q.name := by
        have := congrArg Id.name (hI.trans hA); rw [Pre.here, hpn, hk] at this; exact this
      have dr : p.dir.from p.scope.out = q.scope.rootSrc ++ l := by
        have := congrArg Id.dir (hI.trans hA); rw [Pre.here, hpn, hk] at this; exact this
      rw [hps', ← k2] at dr
      obtain ⟨k, hk1, hk2⟩ := file kq h3 ty nm dr
      rw [← hk2]
      refine .existing (hI ▸ hn) (fun j hj => ?_) hk1
      cases hj with
      | mk _ _ _ h => exact absurd hps' h
    | @new h1 h2 h3 h4 =>
      injection hA with hA
      have hpq := hI.trans hA
      have ty : p.type = q.type := by
        have := congrArg Id.type hpq; rw [Pre.here, Pre.here, hpn, hqn] at this; exact this
      have nm : p.name = q.name := by
        have := congrArg Id.name hpq; rw [Pre.here, Pre.here, hpn, hqn] at this; exact this
      have dr : p.dir.from p.scope.out = q.dir.from q.scope.out := by
        have := congrArg Id.dir hpq; rw [Pre.here, Pre.here, hpn, hqn] at this; exact this
      -- q is relative.
      rcases ht.dir q hq with ⟨rq, lq, hq1, hq2⟩ | ⟨l, hq1, _, hq3, _⟩
      · rcases ht.dir p hp with ⟨rp, lp', hp1, hp2⟩ | ⟨l, hp1, _, _, hp4⟩
        · have e1 : p.dir.from p.scope.out = rootOut ++ lp' := by
            rw [hp1, Dir.from, Scope.out, hp2, hpo]
          have e2 : q.dir.from q.scope.out = rootOut ++ lq := by
            rw [hq1, Dir.from, Scope.out, hq2, hqo]
          have hl : lp' = lq := List.append_cancel_left (e1.symm.trans (dr.trans e2))
          subst hl
          have hsrc : p.dir.from p.scope.src = q.dir.from q.scope.src := by
            rw [hp1, hq1, Dir.from, Dir.from, Scope.src, Scope.src, hp2, hq2, hps, hqs]
          rw [← hpq]
          refine .new (hI ▸ hn) ?_ ?_ ⟨hpn, fun d hd => by rw [hp1] at hd; cases hd⟩
          · rintro j hj ⟨k, hk1, hk2, hk3⟩
            cases hj with
            | @mk r j1 j2 j3 j4 =>
              rw [hp1] at j3
              cases j3
              have hjq : q.InSrc ⟨q.type, complete q.scope.src rq, some (complete q.scope.out rq),
                  q.name⟩ :=
                .mk (ty ▸ j1) hqn hq1 (fun h => j4 ((outeq p hpo hps).2 ((outeq q hqo hqs).1 h)))
              refine h2 _ hjq ⟨k, hk1, ?_, ?_⟩
              · rw [hk2, ty, nm]
                rw [hp1, hq1, Dir.from, Dir.from] at dr hsrc
                rw [dr, hsrc]
              · have := hE3 q hq _ hjq
                refine compatible_of (hE1 k hk1) ?_
                rw [hk2, ty, nm]
                rw [hp1, hq1, Dir.from, Dir.from] at dr hsrc
                rw [dr, hsrc]
                exact this
          · intro k hk
            obtain ⟨l, e, k1, k2, k3, k4, rfl⟩ := (existing_iff hpn k).1 hk
            refine h3 _ ((existing_iff hqn _).2 ⟨l, e, ty ▸ k1, ?_, ?_, ?_, rfl⟩)
            · rw [← hsrc, k2, hps, hqs]
            · rw [← ht.same p hp q hq ty nm hsrc, k3]
            · rw [hqs, ← nm]; rw [hps] at k4; exact k4
        · exfalso
          apply hp4
          rw [hp1, Dir.from, hq1, Dir.from, Scope.out, hq2, hqo] at dr
          exact ⟨lq, dr.symm⟩
      · exact absurd hq3 (h4.2 _ hq1)
  · intro hx hn
    cases hx with
    | @mk r j1 j2 j3 j4 =>
      generalize hI : (⟨p.type, complete p.scope.src r, some (complete p.scope.out r), p.name⟩ : Id)
        = I at hR hi
      have hin : p.InSrc I := hI ▸ .mk j1 j2 j3 j4
      generalize hA : some I = A at hR
      cases hR with
      | declared h => obtain ⟨k, h1, h2, _⟩ := h; cases hA; exact absurd (notdecl ⟨k, h1, h2⟩) hi
      | declaredSrc _ _ h => obtain ⟨k, h1, h2, _⟩ := h; cases hA; exact absurd (notdecl ⟨k, h1, h2⟩) hi
      | error => cases hA
      | @existing kq h1 h2 h3 =>
        injection hA with hA
        obtain ⟨l, e, k1, k2, k3, k4, hk⟩ := (existing_iff hqn kq).1 h3
        have hpq := hI.trans hA
        have ty : p.type = q.type := by
          have := congrArg Id.type hpq; rw [hk] at this; exact this
        have nm : p.name = q.name := by
          have := congrArg Id.name hpq; rw [hk] at this; exact this
        have dr : p.dir.from p.scope.src = q.dir.from q.scope.src := by
          have := congrArg Id.dir hpq; rw [hk] at this
          rw [j3, Dir.from, k2]; exact this
        obtain ⟨k, hk1, hk2⟩ := file kq h3 ty nm dr
        rw [← hk2]
        refine .existing hn (fun j hj hd => ?_) hk1
        rw [InSrc.unique hj hin] at hd
        obtain ⟨k', d1, d2, _⟩ := hd
        exact hi (notdecl ⟨k', d1, d2⟩)
      | @new h1 h2 h3 h4 =>
        injection hA with hA
        have := congrArg Id.out (hI.trans hA)
        rw [Pre.here, hqn] at this
        cases this

/-! ## Cases -/

namespace Case

def cxx : Ty := ⟨0, true⟩
def exe : Ty := ⟨1, false⟩

/-- A buildfile in the directory `d`. -/
def sc : Scope := ⟨["o"], ["s"], ["d"]⟩

/-- `cxx{main}`, where the file exists. -/
def main : Pre := ⟨cxx, sc, .rel [], none, "main", none, some "cxx"⟩

/-- The same with the directory. -/
def main' : Pre := ⟨cxx, sc, .abs ["s", "d"], none, "main", none, some "cxx"⟩

/-- `cxx{../gen}`, where it does not. -/
def gen : Pre := ⟨cxx, sc, .rel [".."], none, "gen", none, some "cxx"⟩

/-- `exe{test}`, which is declared. -/
def test : Pre := ⟨exe, sc, .rel ["."], none, "test", none, none⟩

def ks : List Key := [⟨⟨exe, ["o", "d"], none, "test"⟩, none⟩]

def exist (f : Path) : Bool := f == ["s", "d", "main.cxx"]

def onlySrc (d : Path) : Bool := d.head? == some "s"

theorem existing_ext {p : Pre} (hp : p ∈ [main, main', gen, test]) {k : Key}
    (h : p.Existing (exist · = true) k) : k.ext = some "cxx" := by
  simp only [List.mem_cons, List.not_mem_nil, or_false] at hp
  cases h with
  | found h1 h2 h3 h4 h5 =>
    rcases hp with rfl | rfl | rfl | rfl <;> first | exact h4.symm | cases h1
  | foundAt h1 h2 => rcases hp with rfl | rfl | rfl | rfl <;> cases h2

theorem tidy : Tidy ks (exist · = true) (onlySrc · = true) [main, main', gen, test] ["o"] ["s"] where
  ext := ⟨fun _ => some "cxx", by
      intro k hk; simp only [ks, List.mem_singleton] at hk; subst hk; exact .inl rfl, by
      intro p hp
      simp only [List.mem_cons, List.not_mem_nil, or_false] at hp
      rcases hp with rfl | rfl | rfl | rfl <;> exact .inl rfl, by
      intro p hp i _
      simp only [List.mem_cons, List.not_mem_nil, or_false] at hp
      rcases hp with rfl | rfl | rfl | rfl <;> exact .inl rfl,
    fun p hp k h => existing_ext hp h⟩
  declared := by decide
  project p hp := by
    simp only [List.mem_cons, List.not_mem_nil, or_false] at hp
    rcases hp with rfl | rfl | rfl | rfl <;> decide
  dir p hp := by
    simp only [List.mem_cons, List.not_mem_nil, or_false] at hp
    rcases hp with rfl | rfl | rfl | rfl
    · exact .inl ⟨[], ["d"], rfl, fun b => rfl⟩
    · exact .inr ⟨["d"], rfl, by decide, rfl, by decide⟩
    · refine .inl ⟨[".."], [], rfl, fun b => ?_⟩
      simp [complete, gen, sc]
    · refine .inl ⟨["."], ["d"], rfl, fun b => ?_⟩
      simp [complete, test, sc]
  same p hp q hq h1 _ _ := by
    simp only [List.mem_cons, List.not_mem_nil, or_false] at hp hq
    rcases hp with rfl | rfl | rfl | rfl <;> rcases hq with rfl | rfl | rfl | rfl <;>
      first | rfl | exact absurd h1 (by decide)

/-- The file in the source tree for both. -/
example : Refers ks (exist · = true) (onlySrc · = true) main
      (some ⟨cxx, ["s", "d"], some ["o", "d"], "main"⟩) ∧
    Refers ks (exist · = true) (onlySrc · = true) main'
      (some ⟨cxx, ["s", "d"], some ["o", "d"], "main"⟩) := by
  have nd : ∀ p i, i ∉ ks.map Key.id → ¬ Declared ks p i := fun p i hi ⟨k, h1, h2, _⟩ =>
    hi (List.mem_map.2 ⟨k, h1, h2⟩)
  constructor
  · exact .existing (k := ⟨⟨cxx, ["s", "d"], some ["o", "d"], "main"⟩, some "cxx"⟩) (nd _ _ (by decide))
      (fun i h => by cases h with | mk _ _ h3 _ => cases h3; exact nd _ _ (by decide))
      (fileKey_some (by decide))
  · exact .existing (k := ⟨⟨cxx, ["s", "d"], some ["o", "d"], "main"⟩, some "cxx"⟩) (nd _ _ (by decide))
      (fun i h => by cases h with | mk _ _ h3 _ => cases h3)
      (fileKey_some (by decide))

/-- A new one in the output tree. -/
example : newKey onlySrc gen = some ⟨⟨cxx, ["o"], none, "gen"⟩, none⟩ ∧ fileKey exist gen = none := by
  decide

/-- Two threads search for the same prerequisite at the same time and get the same target. -/
example : ∃ s, Reach ks [main, main', gen, test] exist onlySrc s ∧
    s.done = [(main', some 1), (main, some 1)] := by
  have r0 := Reach.init (ks := ks) (ps := [main, main', gen, test]) (exist := exist) (onlySrc := onlySrc)
  have r1 := r0.step (i := 0) (.call (p := main) rfl (by simp))
  have r2 := r1.step (i := 1) (.call (p := main') rfl (by simp))
  have r3 := r2.step (i := 0) (.firstMissed (p := main) rfl (by decide))
  have r4 := r3.step (i := 1) (.firstMissed (p := main') rfl (by decide))
  have r5 := r4.step (i := 0) (.secondMissed (p := main) rfl (by decide))
  have r6 := r5.step (i := 0) (.fileInsert (p := main)
    (k := ⟨⟨cxx, ["s", "d"], some ["o", "d"], "main"⟩, some "cxx"⟩) rfl (by decide) (by decide))
  have r7 := r6.step (i := 1) (.fileFound (p := main') (t := 1)
    (k := ⟨⟨cxx, ["s", "d"], some ["o", "d"], "main"⟩, some "cxx"⟩) rfl (by decide) rfl (by decide))
  exact ⟨_, r7, rfl⟩

end Case

/-! ## What is false of the code -/

namespace Race

def txt : Ty := ⟨0, true⟩
def sc : Scope := ⟨["o"], ["s"], []⟩

/-- `file{foo.txt}`, and the file exists in the source tree. -/
def p : Pre := ⟨txt, sc, .rel [], none, "foo", some "txt", none⟩

/-- `$out_base/file{foo.txt}`. -/
def q : Pre := ⟨txt, sc, .abs ["o"], none, "foo", some "txt", none⟩

def exist (f : Path) : Bool := f == ["s", "foo.txt"]

/-- `file{foo}` with another default extension, where such file exists as well. -/
def p' : Pre := ⟨txt, sc, .rel [], none, "foo", none, some "md"⟩

def exist' (f : Path) : Bool := f == ["s", "foo.txt"] || f == ["s", "foo.md"]

def onlySrc (d : Path) : Bool := d == ["s"]

end Race

open Race in
/-- If something refers to the same name in the output tree explicitly, then it depends on which
of the two is searched for first whether the other refers to the file in the source tree. -/
theorem out_races :
    (∃ s, Reach [] [p, q] exist onlySrc s ∧ s.done = [(p, some 0)] ∧
      s.objs = [⟨⟨txt, ["s"], some ["o"], "foo"⟩, some "txt"⟩]) ∧
    ∃ s, Reach [] [p, q] exist onlySrc s ∧ s.done = [(p, some 0), (q, some 0)] ∧
      s.objs = [⟨⟨txt, ["o"], none, "foo"⟩, some "txt"⟩] := by
  have r0 := Reach.init (ks := []) (ps := [p, q]) (exist := exist) (onlySrc := onlySrc)
  constructor
  · have r1 := r0.step (i := 0) (.call (p := p) rfl (by simp))
    have r2 := r1.step (i := 0) (.firstMissed (p := p) rfl (by decide))
    have r3 := r2.step (i := 0) (.secondMissed (p := p) rfl (by decide))
    have r4 := r3.step (i := 0) (.fileInsert (p := p)
      (k := ⟨⟨txt, ["s"], some ["o"], "foo"⟩, some "txt"⟩) rfl (by decide) (by decide))
    exact ⟨_, r4, rfl, rfl⟩
  · have r1 := r0.step (i := 1) (.call (p := q) rfl (by simp))
    have r2 := r1.step (i := 1) (.firstMissed (p := q) rfl (by decide))
    have r3 := r2.step (i := 1) (.fileMissed (p := q) rfl (by decide))
    have r4 := r3.step (i := 1) (.newInsert (p := q)
      (k := ⟨⟨txt, ["o"], none, "foo"⟩, some "txt"⟩) rfl (by decide) (by decide))
    have r5 := r4.step (i := 0) (.call (p := p) rfl (by simp))
    have r6 := r5.step (i := 0) (.firstFound (p := p) (t := 0) rfl rfl (by decide))
    exact ⟨_, r6, rfl, rfl⟩

open Race in
/-- If the same name is used with another extension, then it depends on the order whether the name
without extension refers to the file with this extension or with the default one. -/
theorem extension_races :
    (∃ s, Reach [] [p, p'] exist' onlySrc s ∧ s.done = [(p', some 0)] ∧
      s.objs = [⟨⟨txt, ["s"], some ["o"], "foo"⟩, some "md"⟩]) ∧
    ∃ s, Reach [] [p, p'] exist' onlySrc s ∧ s.done = [(p', some 0), (p, some 0)] ∧
      s.objs = [⟨⟨txt, ["s"], some ["o"], "foo"⟩, some "txt"⟩] := by
  have r0 := Reach.init (ks := []) (ps := [p, p']) (exist := exist') (onlySrc := onlySrc)
  constructor
  · have r1 := r0.step (i := 0) (.call (p := p') rfl (by simp))
    have r2 := r1.step (i := 0) (.firstMissed (p := p') rfl (by decide))
    have r3 := r2.step (i := 0) (.secondMissed (p := p') rfl (by decide))
    have r4 := r3.step (i := 0) (.fileInsert (p := p')
      (k := ⟨⟨txt, ["s"], some ["o"], "foo"⟩, some "md"⟩) rfl (by decide) (by decide))
    exact ⟨_, r4, rfl, rfl⟩
  · have r1 := r0.step (i := 1) (.call (p := p) rfl (by simp))
    have r2 := r1.step (i := 1) (.firstMissed (p := p) rfl (by decide))
    have r3 := r2.step (i := 1) (.secondMissed (p := p) rfl (by decide))
    have r4 := r3.step (i := 1) (.fileInsert (p := p)
      (k := ⟨⟨txt, ["s"], some ["o"], "foo"⟩, some "txt"⟩) rfl (by decide) (by decide))
    have r5 := r4.step (i := 0) (.call (p := p') rfl (by simp))
    have r6 := r5.step (i := 0) (.firstMissed (p := p') rfl (by decide))
    have r7 := r6.step (i := 0) (.secondFound (p := p') (t := 0) rfl rfl (by decide))
    exact ⟨_, r7, rfl, rfl⟩

end Verif.Search
