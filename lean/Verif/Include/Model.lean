import Verif.Include.Spec

/-!
# Buildfiles that source, include and import one another: model

`libbuild2/parser.cxx`: `detect_include_cycle` (405-462), `parse_clause` (640-665, 806-821),
`source_buildfile` (3650-3728), `parse_source` (3731-3816), `parse_include` (3819-4010),
`parse_import` for buildfiles (4925-4985), `parse_for` (6245-6290), `parse_if_else` (5330-5350),
`process_default_target` (10787-10845); `libbuild2/scope.hxx` `insert_buildfile` (569-578);
`libbuild2/file.cxx` `source_once` (347-365).

Not modelled: the text of the buildfiles, variables (a condition is any function of what has
happened), directory scopes and their blocks, the parsing of paths (a file is a number), switches,
`while` (a loop that needn't end), `run`, export stubs, more than one project, the stages of
bootstrap (in which there is no default target), exported buildfiles.
-/

namespace Verif.Include

/-- The state of the parser (parser.hxx 1195-1245: `path_`, `prev_path_`, `scope_`,
`loop_level_`, `condition_`, `default_target_`) together with what has been loaded (scope.hxx
`buildfiles`, 560-578; targets). An element of `prev_path_` (parser.hxx 1195-1206) has the path
of the file the directive is in and whether it is marked. -/
structure St where
  path : Nat
  prev : List (Nat × Bool)
  scope : Nat
  level : Nat
  cond : Bool
  dflt : Option Tgt
  w : W

/-- How the parsing of a clause ends: at the end of the clause, with the exception
`loop_control` (parser.hxx 189-196), with a failure. Running out of fuel is an artefact of the
model: the recursion is then deeper than the fuel. -/
inductive Res
  | ok (s : St)
  | ctl (brk : Bool) (s : St)
  | fail (e : Err)
  | fuel

/-- `detect_include_cycle` (parser.cxx 428-441): the loop over `prev_path_`. -/
def detectLoop (p : Nat) : List (Nat × Bool) → Bool
  | [] => false
  | (f, allow) :: rest =>
    if allow then false
    else if f = p then true
    else detectLoop p rest

/-- `detect_include_cycle` (parser.cxx 405-462): the version (415-418) and the would-be entry
(420-426). -/
def detect (P : Proj) (s : St) (p : Nat) : Bool :=
  P.check && detectLoop p ((s.path, false) :: s.prev)

/-- `insert_buildfile` (scope.hxx 569-578). -/
def insertBuildfile (w : W) (p : Nat) : Bool × W :=
  if w.inserted.contains p then (false, w)
  else (true, { w with inserted := w.inserted ++ [p] })

/-- Whether the target of a directory has been declared (`ct->decl == real`, parser.cxx
10802-10812). -/
def hasDir (w : W) (d : Nat) : Bool := w.dirs.any (fun x => x.1 == d)

/-- `process_default_target` (parser.cxx 10799-10841). -/
def processDefaultTarget (s : St) : St :=
  match s.dflt with
  | none => s
  | some t =>
    if hasDir s.w s.scope then s
    else { s with w := { s.w with dirs := s.w.dirs ++ [(s.scope, some t)] } }

/-- A target is declared (parser.cxx 2185-2198, 3080-3088): it is real now, and the default one
if it is the first; `condition_` is what the warning (3204) depends on. -/
def declare (s : St) (t : Option Nat) : St :=
  let t' := match t with
    | some n => Tgt.other n
    | none => Tgt.dir s.scope
  let w := s.w.add (.decl t' s.cond)
  let w := match t with
    | some _ => w
    | none => if hasDir w s.scope then w else { w with dirs := w.dirs ++ [(s.scope, none)] }
  { s with
    w := w
    dflt := match s.dflt with
      | none => some t'
      | some d => some d }

/-- The lambda `post` of `source_buildfile` (parser.cxx 3691-3705): `old` is the state before. -/
def post (deft : Option Bool) (old s : St) : St :=
  let s := if deft = some true then processDefaultTarget s else s
  let s := if deft = none ∨ deft = some true then { s with dflt := old.dflt } else s
  { s with prev := old.prev, path := old.path }

/-- `source_buildfile` (parser.cxx 3650-3728), with the opening of the file in its callers and
with the handling of `loop_level_` by `parse_clause` (660-665). -/
def sourceBuildfile (P : Proj) (parse : Code → St → Res) (how : How) (p : Nat)
    (deft : Option Bool) (allowCycle allowLoop : Bool) (s : St) : Res :=
  match P.files[p]? with
  | none => .fail (.read p)
  | some code =>
    let s1 := { s with
      w := s.w.add (.enter how p)
      prev := (s.path, allowCycle) :: s.prev
      path := p
      dflt := if deft = some true then none else s.dflt
      level := if allowLoop then s.level else 0 }
    match parse code s1 with
    | .ok s2 => .ok (post deft s { s2 with level := s.level })
    | .ctl b s2 =>
      if allowLoop then .ctl b (post deft s { s2 with level := s.level }) else .fail .assert
    | .fail e => .fail e
    | .fuel => .fuel

/-- One name of `parse_source` (parser.cxx 3772-3813). -/
def parseSource (P : Proj) (parse : Code → St → Res) (p : Nat) (nodt acyc : Bool) (s : St) : Res :=
  if !acyc && detect P s p then .fail (.cycle p)
  else sourceBuildfile P parse .source p (if nodt then none else some false) acyc true s

/-- The guards of `parse_include` and `parse_import` restore the scope and the condition.
Used by `parseInclude` (parser.cxx 3855-4007). -/
def restore (old : St) : Res → Res
  | .ok s => .ok { s with scope := old.scope, cond := old.cond }
  | .ctl b s => .ctl b { s with scope := old.scope, cond := old.cond }
  | .fail e => .fail e
  | .fuel => .fuel

/-- One name of `parse_include` (parser.cxx 3855-4007). -/
def parseInclude (P : Proj) (parse : Code → St → Res) (p : Nat) (acyc : Bool) (s : St) : Res :=
  let s1 := { s with scope := P.dirOf p }
  if !acyc && detect P s1 p then .fail (.cycle p)
  else
    let (new, w) := insertBuildfile s1.w p
    if !new then restore s (.ok s1)
    else restore s
      (sourceBuildfile P parse .incl p (some true) acyc false { s1 with w := w, cond := false })

/-- A buildfile imported by `parse_import` (parser.cxx 4925-4983). -/
def parseImport (P : Proj) (parse : Code → St → Res) (p : Nat) (nodt once : Bool) (s : St) : Res :=
  if detect P s p then .fail (.cycle p)
  else
    let (new, w) := insertBuildfile s.w p
    if !new && once then .ok { s with w := w }
    else restore s
      (sourceBuildfile P parse .imp p (if nodt then none else some false) false false
        { s with w := w, cond := false })

/-- The iterations of `parse_for` (parser.cxx 6245-6290): the level is incremented for the
duration of the body. -/
def iterate (body : St → Res) : Nat → St → Res
  | 0, s => .ok s
  | n + 1, s =>
    match body { s with level := s.level + 1 } with
    | .ok s1 => iterate body n { s1 with level := s1.level - 1 }
    | .ctl b s1 =>
      let s1 := { s1 with level := s1.level - 1 }
      if b then .ok s1 else iterate body n s1
    | .fail e => .fail e
    | .fuel => .fuel

/-- The rest of a clause is parsed if the directive doesn't throw.
Used by `clause` (parser.cxx 640-1050). -/
def andThen (r : Res) (k : St → Res) : Res :=
  match r with
  | .ok s => k s
  | .ctl b s => .ctl b s
  | .fail e => .fail e
  | .fuel => .fuel

/-- `parse_clause` (parser.cxx 640-1050): the directives one after another. `parse` parses the
clause of another file. -/
def clause (P : Proj) (parse : Code → St → Res) : Code → St → Res
  | .nil, s => .ok s
  | .decl t rest, s => clause P parse rest (declare s t)
  | .source p nodt acyc rest, s =>
    andThen (parseSource P parse p nodt acyc s) (clause P parse rest)
  | .incl p acyc rest, s => andThen (parseInclude P parse p acyc s) (clause P parse rest)
  | .imp p nodt once rest, s => andThen (parseImport P parse p nodt once s) (clause P parse rest)
  | .cond q body rest, s =>
    -- parse_if_else() (5330-5350): the guard restores the condition.
    if q s.w.log then
      match clause P parse body { s with cond := true } with
      | .ok s1 => clause P parse rest { s1 with cond := s.cond }
      | .ctl b s1 => .ctl b { s1 with cond := s.cond }
      | .fail e => .fail e
      | .fuel => .fuel
    else clause P parse rest s
  | .loop q body rest, s =>
    andThen (iterate (clause P parse body) (q s.w.log) s) (clause P parse rest)
  | .ctl b _, s => if s.level = 0 then .fail .outside else .ctl b s

/-- `parse_clause` with the depth of recursion through files limited.
Puts together `clause` (parser.cxx 640-1050) and what goes with it; no function of its own in the code. -/
def run (P : Proj) : Nat → Code → St → Res
  | 0, _, _ => .fuel
  | n + 1, code, s => clause P (run P n) code s

/-- `source_once` (file.cxx 347-365) and `parse_buildfile` (parser.cxx 351-401) of the buildfile
of a directory. -/
def load (P : Proj) (fuel : Nat) (p : Nat) : Res :=
  match P.files[p]? with
  | none => .fail (.read p)
  | some code =>
    match run P fuel code ⟨p, [], P.dirOf p, 0, false, none, ⟨[p], [], []⟩⟩ with
    | .ok s => .ok (processDefaultTarget s)
    | .ctl _ _ => .fail .assert
    | .fail e => .fail e
    | .fuel => .fuel

end Verif.Include
