import Verif.Headers.Spec
/-!
# Header dependencies: the model
-/

namespace Verif.Headers

/-- When the headers that have been updated by this build were updated, and the
current time. Used by `preprocess` (libbuild2/cc/compile-rule.cxx 3177-3212). -/
structure St where
  done : Path → Option Nat
  now : Nat

/-- The current contents. Used by `preprocess` (libbuild2/cc/compile-rule.cxx 3177-3212). -/
def content (w : World) (s : St) : Files := fun p =>
  match s.done p with
  | some _ => w.after p
  | none => w.before p

/-- Updates a header that is out of date. Used by `inject` (libbuild2/dyndep.cxx 25-57). -/
def execute (w : World) (s : St) (p : Path) : St :=
  if (w.rule p).isSome && (s.done p).isNone then
    { s with done := fun q => if q = p then some s.now else s.done q }
  else s

/-- Time goes by, during which other targets are built.
Used by `preprocess` (libbuild2/cc/compile-rule.cxx 3177-3212). -/
def tick (w : World) (s : St) : St :=
  let s' := (w.others s.now).foldl (execute w) s
  { s' with now := s.now + 1 }

/-- One run of the preprocessor, with what it has included and whether it was
successful. With -MG (`gen`) a missing header is reported and otherwise ignored
(libbuild2/cc/compile-rule.cxx 3177-3212). -/
def preprocess (w : World) (gen : Bool) : Source → St → List Path × Bool × St
  | .done, s => ([], true, s)
  | .error, s => ([], false, s)
  | .test p k, s => preprocess w gen (k (content w (tick w s) p).isSome) (tick w s)
  | .incl p k, s =>
    match content w (tick w s) p with
    | some c =>
      let r := preprocess w gen (k (some c)) (tick w s)
      (p :: r.1, r.2)
    | none =>
      if gen then
        let r := preprocess w gen (k none) (tick w s)
        (p :: r.1, r.2)
      else ([], false, tick w s)

/-- libbuild2/dyndep.cxx 25-57 `inject_file` and libbuild2/algorithm.cxx
3118-3187 `update_during_match`: whether the header has been updated or is newer
than the specified time, if it exists or can be generated. -/
def inject (w : World) (s : St) (p : Path) (ts : Nat) : Option Bool × St :=
  let s := tick w s
  match w.rule p with
  | some _ =>
    match s.done p with
    | none =>
      let s' := execute w s p
      (some true, { s' with now := s'.now + 1 })
    -- libbuild2/target.ixx `newer`: it is in the changed state.
    | some m => (some (decide (ts ≤ m)), s)
  | none =>
    match w.old p with
    | some f => (some (decide (ts < f.mtime)), s)
    | none => (none, s)

/-- The part of the dependency database with headers (see C03 for the whole):
the lines that have been confirmed or written, those yet to be read and whether
it is being written. Used by `Db.expect` (libbuild2/depdb.cxx). -/
structure Db where
  lines : List Path
  rest : List Path
  writing : Bool

/-- libbuild2/depdb.cxx `expect`. -/
def Db.expect (d : Db) (p : Path) : Db :=
  match d.writing, d.rest with
  | false, q :: rest =>
    if q = p then { d with lines := d.lines ++ [p], rest := rest }
    else ⟨d.lines ++ [p], [], true⟩
  | _, _ => ⟨d.lines ++ [p], [], true⟩

/-- libbuild2/cc/compile-rule.cxx 4958-4960: the blank line at the end. -/
def Db.finish (d : Db) : Db :=
  if d.rest = [] then d else { d with rest := [], writing := true }

/-- What is kept between restarts (3811 `skip_count`, 3980-3982 `force_gen` and
`force_gen_skip`, `update`, the dependency database) and the prerequisites that
have been added. Used by `process` (libbuild2/cc/compile-rule.cxx 4613-4703). -/
structure X where
  st : St
  db : Db
  prereqs : List Path
  skip : Nat
  update : Bool
  forceGen : Option Bool
  forceSkip : Option Nat

/-- Why the reading of the output of the preprocessor ends.
Used by `process` (libbuild2/cc/compile-rule.cxx 4613-4703). -/
inductive Ends where
  | all
  | restart
  | deferred
deriving DecidableEq, Repr

/-- libbuild2/cc/compile-rule.cxx 4613-4703: the loop over the reported
headers, with `add` (3821-3896) for each of them. -/
def process (w : World) (pmt : Nat) : X → List Path → X × Ends
  | x, [] => (x, .all)
  | x, p :: ps =>
    match inject w x.st p pmt with
    | (none, s) => ({ x with st := s, update := true }, .deferred)
    | (some u, s) =>
      let x := { x with
        st := s, db := x.db.expect p, prereqs := x.prereqs ++ [p], skip := x.skip + 1 }
      if u then ({ x with update := true }, .restart)
      else process w pmt x ps

/-- Used by `loop` (libbuild2/cc/compile-rule.cxx 3986-4954). -/
inductive Outcome where
  | ok (x : X)
  -- The header is not found: left to the compilation to fail.
  | deferred (x : X)
  -- The diagnostics is of the preprocessor.
  | failed (x : X)
  -- "inconsistent compiler behavior".
  | inconsistent (x : X)
  -- Not done in the given number of runs.
  | runs

/-- libbuild2/cc/compile-rule.cxx 3986-4954: the loop that runs the
preprocessor, for the compilers of the GCC class and without the module mapper.
Whether they report the headers in case of an error is given (`reports`). -/
def loop (w : World) (reports : Bool) (src : Source) : Nat → X → Outcome
  | 0, _ => .runs
  | fuel + 1, x =>
    let gen := x.forceGen.getD false
    let pmt := x.st.now
    let r := preprocess w gen src x.st
    let ok := r.2.1
    let ps := if ok || reports then r.1 else []
    match process w pmt { x with st := r.2.2 } (ps.drop x.skip) with
    | (x, .deferred) => .deferred x
    | (x, e) =>
      let forced := x.forceGen = some true
      let restart := e = .restart || forced
      -- 4787-4792.
      let x := if forced then { x with update := true, forceGen := some false } else x
      -- 4795-4813.
      if ok then
        if restart then loop w reports src fuel x else .ok x
      -- 4814-4824.
      else if e = .restart then loop w reports src fuel x
      -- 4849-4857.
      else if gen then .failed x
      -- 4872-4880, cannot be reached for the GCC class.
      else if restart then loop w reports src fuel x
      -- 4905-4919.
      else if x.forceSkip = some x.skip then .inconsistent x
      -- 4921-4927.
      else loop w reports src fuel { x with forceGen := some true, forceSkip := some x.skip }

/-- Whether the cached headers are all there and up to date.
Used by `fromCache` (libbuild2/cc/compile-rule.cxx 3990-4080). -/
inductive Cached where
  | current
  | restart
deriving DecidableEq, Repr

/-- libbuild2/cc/compile-rule.cxx 3990-4080: the headers from the dependency
database. Whether the database is complete (ends with the blank line) is given.
Header units are left out. -/
def fromCache (w : World) (mt : Nat) (complete : Bool) : X → List Path → X × Cached
  | x, [] =>
    if complete then ({ x with db := { x.db with rest := [] } }, .current)
    else ({ x with db := { x.db with rest := [], writing := true } }, .restart)
  | x, p :: ps =>
    match inject w x.st p mt with
    -- Invalidate this line.
    | (none, s) =>
      ({ x with st := s, db := { x.db with rest := [], writing := true }, update := true },
        .restart)
    | (some u, s) =>
      let x := { x with
        st := s, db := { x.db with lines := x.db.lines ++ [p], rest := ps },
        prereqs := x.prereqs ++ [p], skip := x.skip + 1 }
      if u then ({ x with update := true }, .restart)
      else fromCache w mt complete x ps

/-- libbuild2/cc/compile-rule.cxx 4958-4966: after the loop. -/
def finished : Outcome → Outcome
  | .ok x => .ok { x with db := x.db.finish }
  | o => o

/-- libbuild2/cc/compile-rule.cxx 3080-4966 `extract_headers`: the dependency
database has the specified lines and, unless something before the headers has
changed (`cache`), is to be used. -/
def extract (w : World) (reports : Bool) (src : Source) (fuel now mt : Nat) (cache complete : Bool)
    (lines : List Path) : Outcome :=
  let x : X := ⟨⟨fun _ => none, now⟩, ⟨[], lines, false⟩, [], 0, !cache, none, none⟩
  if cache then
    match fromCache w mt complete x lines with
    | (x, .current) => .ok x
    | (x, .restart) => finished (loop w reports src fuel x)
  else finished (loop w reports src fuel x)

end Verif.Headers
