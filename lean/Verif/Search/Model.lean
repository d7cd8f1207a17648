import Verif.Search.Spec

/-!
# What target a prerequisite refers to: model of the code

libbuild2/search.cxx (`search_existing_target`, `search_existing_file`, `create_new_target`),
libbuild2/target.cxx (`target_search`, `file_search`), libbuild2/algorithm.cxx (`search`).

Any number of threads search for prerequisites during the match phase. Each operation on the set
of targets is atomic (Verif/TargetSet is about what they are made of); types with fixed
extensions and project-qualified prerequisites are left out. Files in the source tree do not come
or go in the meantime.
-/

namespace Verif.Search

/-- target-key.hxx:57-70 operator==. -/
def keyEq (x y : Key) : Bool :=
  x.id == y.id && (x.ext == none || y.ext == none || x.ext == y.ext)

/-- search.cxx:29-40: the directory where a target is looked for first. -/
def firstDir (p : Pre) : Path :=
  match p.dir with
  | .abs d => d
  | .rel r => complete (if p.out = none then p.scope.out else p.scope.src) r

/-- search.cxx:54-73 and 200-215: the out directory if specified. -/
def outDir (p : Pre) (d : Path) (o : Dir) : Option Path :=
  let o' := match o with
    | .abs o => o
    | .rel r => complete p.scope.out r
  if o' = d then none else some o'

/-- search.cxx:75-76: the key that is looked for first. -/
def firstKey (p : Pre) : Key :=
  ⟨⟨p.type, firstDir p, p.out.bind (outDir p (firstDir p)), p.name⟩, p.ext⟩

/-- search.cxx:80-96: the one in the src tree, if it is to be tried. -/
def secondKey (p : Pre) : Option Key :=
  match p.dir with
  | .abs _ => none
  | .rel r =>
    if p.type.file = true ∧ p.out = none ∧ p.scope.out ≠ p.scope.src then
      some ⟨⟨p.type, complete p.scope.src r, some (complete p.scope.out r), p.name⟩, p.ext⟩
    else none

/-- search.cxx:118-130: the directory of the file. -/
def fileDir (p : Pre) : Path :=
  match p.dir with
  | .abs d => d
  | .rel r => complete p.scope.src r

/-- search.cxx:139-158: the extension. -/
def fileExt (p : Pre) : Option String :=
  match p.ext with
  | some e => some e
  | none => p.defaultExt

/-- search.cxx:106-220 `search_existing_file`, and target.cxx:1164-1191 by type: the key that is
inserted, if there is a file. -/
def fileKey (exist : Path → Bool) (p : Pre) : Option Key :=
  if p.type.file then
    if p.scope.rootSrc.isPrefixOf (fileDir p) then
      match fileExt p with
      | none => none
      | some e =>
        if exist (fileDir p ++ [if e = "" then p.name else p.name ++ "." ++ e]) then
          some ⟨⟨p.type, fileDir p,
            match p.out with
            | none =>
              if p.scope.out = p.scope.src then none
              else some (p.scope.rootOut ++ (fileDir p).drop p.scope.rootSrc.length)
            | some o => outDir p (fileDir p) o,
            p.name⟩, some e⟩
        else none
    else none
  else none

/-- algorithm.cxx:72-78 and search.cxx:249-291 `create_new_target`: the key that is inserted, or
this fails. Whether the directory is only in some src tree (`scopes.find`) is a parameter. -/
def newKey (onlySrc : Path → Bool) (p : Pre) : Option Key :=
  match p.out with
  | some _ => none
  | none =>
    match p.dir with
    | .abs d => if onlySrc d then none else some ⟨⟨p.type, d, none, p.name⟩, p.ext⟩
    | .rel r => some ⟨⟨p.type, complete p.scope.out r, none, p.name⟩, p.ext⟩

/-- Where a thread is in `search`. Used by `afterFirst` (search.cxx:80-84). -/
inductive Pc
  | idle | first (p : Pre) | second (p : Pre) (k : Key) | file (p : Pre) | new (p : Pre)

/-- The targets, where the threads are, and what has been found for prerequisites: the number of
the target, or it has failed. -/
structure State where
  objs : List Key
  pc   : Nat → Pc
  done : List (Pre × Option Nat)

def setPc (pc : Nat → Pc) (i : Nat) (x : Pc) : Nat → Pc := fun j => if j = i then x else pc j

/-- target.cxx:766-767, 864-865: set the extension if it is specified. -/
def setExt (objs : List Key) (t : Nat) (e : Option String) : List Key :=
  match e with
  | none => objs
  | some e => objs.modify t fun k => { k with ext := some e }

/-- The search is completed. -/
def finish (s : State) (i : Nat) (p : Pre) (objs : List Key) (r : Option Nat) : State :=
  ⟨objs, setPc s.pc i .idle, (p, r) :: s.done⟩

/-- After the first key has not been found. search.cxx:80-84. -/
def afterFirst (p : Pre) : Pc :=
  match secondKey p with
  | some k => .second p k
  | none => .file p

/-- One step of a thread. -/
inductive Step (ps : List Pre) (exist onlySrc : Path → Bool) (i : Nat) : State → State → Prop
  /-- algorithm.cxx:57 `search` is called. -/
  | call {s p} : s.pc i = .idle → p ∈ ps →
      Step ps exist onlySrc i s { s with pc := setPc s.pc i (.first p) }
  /-- search.cxx:75: found; which one if there are several is not specified. -/
  | firstFound {s p t o} : s.pc i = .first p → s.objs[t]? = some o → keyEq o (firstKey p) = true →
      Step ps exist onlySrc i s (finish s i p (setExt s.objs t p.ext) (some t))
  | firstMissed {s p} : s.pc i = .first p → (∀ o ∈ s.objs, keyEq o (firstKey p) = false) →
      Step ps exist onlySrc i s { s with pc := setPc s.pc i (afterFirst p) }
  /-- search.cxx:95. -/
  | secondFound {s p k t o} : s.pc i = .second p k → s.objs[t]? = some o → keyEq o k = true →
      Step ps exist onlySrc i s (finish s i p (setExt s.objs t p.ext) (some t))
  | secondMissed {s p k} : s.pc i = .second p k → (∀ o ∈ s.objs, keyEq o k = false) →
      Step ps exist onlySrc i s { s with pc := setPc s.pc i (.file p) }
  /-- search.cxx:225: inserted, or already there. -/
  | fileInsert {s p k} : s.pc i = .file p → fileKey exist p = some k →
      (∀ o ∈ s.objs, keyEq o k = false) →
      Step ps exist onlySrc i s (finish s i p (s.objs ++ [k]) (some s.objs.length))
  | fileFound {s p k t o} : s.pc i = .file p → fileKey exist p = some k →
      s.objs[t]? = some o → keyEq o k = true →
      Step ps exist onlySrc i s (finish s i p (setExt s.objs t k.ext) (some t))
  | fileMissed {s p} : s.pc i = .file p → fileKey exist p = none →
      Step ps exist onlySrc i s { s with pc := setPc s.pc i (.new p) }
  /-- search.cxx:296. -/
  | newInsert {s p k} : s.pc i = .new p → newKey onlySrc p = some k →
      (∀ o ∈ s.objs, keyEq o k = false) →
      Step ps exist onlySrc i s (finish s i p (s.objs ++ [k]) (some s.objs.length))
  | newFound {s p k t o} : s.pc i = .new p → newKey onlySrc p = some k →
      s.objs[t]? = some o → keyEq o k = true →
      Step ps exist onlySrc i s (finish s i p (setExt s.objs t k.ext) (some t))
  | newFailed {s p} : s.pc i = .new p → newKey onlySrc p = none →
      Step ps exist onlySrc i s (finish s i p s.objs none)

/-- States that can be reached from the declared targets by any interleaving. -/
inductive Reach (ks : List Key) (ps : List Pre) (exist onlySrc : Path → Bool) : State → Prop
  | init : Reach ks ps exist onlySrc ⟨ks, fun _ => .idle, []⟩
  | step {s s' i} : Reach ks ps exist onlySrc s → Step ps exist onlySrc i s s' →
      Reach ks ps exist onlySrc s'

end Verif.Search
