import Verif.Modules.Spec

/-!
# Build system modules: model

`libbuild2/module.cxx`: `boot_module` (833-880), `init_module` (905-1005), `load_module`
(1024-1059); `libbuild2/file.cxx` `load_root` (1772-1781, 1801, 1871-1872, 1893-1914).

Not modelled: how a module is found (`find_module`, a fixed yes or no for each), post-boot
functions, the module objects, hints, external modules that are skipped, hooks, outer projects.
-/

namespace Verif.Modules

/-- The state: `loaded_modules` (module.hxx 188-228) with the name and `boot_init` of each, in
order; the variables `<mod>.build.loaded` and `<mod>.build.configured` of each scope, which are
always assigned together (module.cxx 949-950, 1001-1002), with none being null; what has been
done. -/
structure St where
  loaded : List (Nat × Option Mode)
  vars : List ((Nat × Nat) × Option (Bool × Bool))
  log : List Ev

/-- `module_state_map::find` (module.hxx 203-217). -/
def find (s : St) (m : Nat) : Option (Option Mode) :=
  (s.loaded.find? (fun x => x.1 == m)).map Prod.snd

/-- The variables of a module in a scope, if assigned.
Used by `initWith` (module.cxx 905-1005). -/
def var (s : St) (m sc : Nat) : Option (Option (Bool × Bool)) :=
  (s.vars.find? (fun x => x.1 == (m, sc))).map Prod.snd

/-- `scope::assign` and the assignment of a value: the previous one is replaced.
Used by `initWith` (module.cxx 905-1005). -/
def setVar (s : St) (m sc : Nat) (v : Option (Bool × Bool)) : St :=
  { s with vars := ((m, sc), v) :: s.vars }

/-- The value that is found for a scope: the innermost one (`bs[...]`).
Used by `tryLoadWith` (module.cxx 1024-1043). -/
def lookupVar (s : St) (m : Nat) : List Nat → Option (Bool × Bool)
  | [] => none
  | sc :: rest =>
    match var s m sc with
    | some v => v
    | none => lookupVar s m rest

/-- Changing `boot_init` of a module (module.cxx 936, 874). -/
def setMode (s : St) (m : Nat) (v : Option Mode) : St :=
  { s with loaded := s.loaded.map (fun x => if x.1 == m then (x.1, v) else x) }

/-- `boot_module` (module.cxx 833-880); `call` boots the modules that the boot function boots. -/
def bootWith (S : Sys) (call : Nat → St → Except Err St) (m : Nat) (s : St) : Except Err St :=
  match find s m with
  | some mode => if mode.isSome then .ok s else .error .assertion
  | none =>
    if !(S.mods m).found then .ok s
    else
      match (S.mods m).boot with
      | none => .error (.shouldNotBoot m)
      | some (ms, mode) =>
        match ms.foldlM (fun s m => call m s)
          { s with loaded := s.loaded ++ [(m, none)], log := s.log ++ [.boot m] } with
        | .error e => .error e
        | .ok s1 => .ok (setMode s1 m (some mode))

/-- `boot_module` with limited depth. Built on `bootWith` (module.cxx 833-880). -/
def bootModule (S : Sys) : Nat → Nat → St → Except Err St
  | 0 => fun _ _ => .error .fuel
  | n + 1 => bootWith S (bootModule S n)

/-- The first part of `init_module` (module.cxx 912-940): the module is found, entered, and it is
determined whether this is its first initialization. -/
def enter (S : Sys) (m : Nat) (opt : Bool) (s : St) : Except Err (St × Bool) :=
  match find s m with
  | none =>
    if (S.mods m).found then
      if (S.mods m).boot.isSome then .error (.shouldBoot m)
      else .ok ({ s with loaded := s.loaded ++ [(m, none)] }, true)
    else if opt then .ok (s, true)
    else .error (.unable m)
  | some none => .ok (s, false)
  | some (some _) => .ok (setMode s m none, true)

/-- `init_module` (module.cxx 905-1005); `run` executes what the initialization does. -/
def initWith (S : Sys) (run : Prog → St → Except Err (St × Bool)) (sc m : Nat) (opt : Bool)
    (s : St) : Except Err (St × Bool) :=
  match enter S m opt s with
  | .error e => .error e
  | .ok (s, f) =>
    match var s m sc with
    | some (some (l, c)) =>
      if !opt && !l then .error (.unable m)
      else if !opt && !c then .error (.notConfigured m)
      else .ok (s, l && c)
    | _ =>
      let s := setVar s m sc none
      if (find s m).isSome then
        match run ((S.mods m).init sc f opt) { s with log := s.log ++ [.init m sc f] } with
        | .error e => .error e
        | .ok (s, c) => .ok (setVar s m sc (some (true, c)), c)
      else .ok (setVar s m sc (some (false, false)), false)

/-- The optional `load_module` (module.cxx 1024-1043). -/
def tryLoadWith (S : Sys) (init : Nat → Nat → Bool → St → Except Err (St × Bool)) (sc m : Nat)
    (s : St) : Except Err (St × Bool) :=
  match lookupVar s m (S.chain sc) with
  | some (true, c) => .ok (s, c)
  | _ => init sc m true s

/-- The other `load_module` (module.cxx 1046-1058): what `init_module` returns is dereferenced
even if it is null. -/
def loadWith (S : Sys) (init : Nat → Nat → Bool → St → Except Err (St × Bool)) (sc m : Nat)
    (s : St) : Except Err St :=
  match lookupVar s m (S.chain sc) with
  | some (true, _) => .ok s
  | _ =>
    match init sc m false s with
    | .error e => .error e
    | .ok (s, b) => if b then .ok s else .error .assertion

/-- What an initialization does, and whether it has configured the module.
Puts together `loadWith` (module.cxx 1046-1058) and what goes with it; no function of its own in the code. -/
def exec (S : Sys) (init : Nat → Nat → Bool → St → Except Err (St × Bool)) :
    Prog → St → Except Err (St × Bool)
  | .done c, s => .ok (s, c)
  | .fail, _ => .error .failed
  | .use sc m opt k, s =>
    match init sc m opt s with
    | .error e => .error e
    | .ok (s, b) => exec S init (k b) s
  | .tryLoad sc m k, s =>
    match tryLoadWith S init sc m s with
    | .error e => .error e
    | .ok (s, b) => exec S init (k b) s
  | .load sc m k, s =>
    match loadWith S init sc m s with
    | .error e => .error e
    | .ok s => exec S init k s

/-- `init_module` with limited depth. Used by `initModules` (file.cxx 1771-1781). -/
def initModule (S : Sys) : Nat → Nat → Nat → Bool → St → Except Err (St × Bool)
  | 0 => fun _ _ _ _ => .error .fuel
  | n + 1 => initWith S (exec S (initModule S n))

/-- The lambda `init_modules` of `load_root` (file.cxx 1771-1781), for the names at the indexes
that are left. -/
def initModules (S : Sys) (n : Nat) (v : Mode) : List Nat → St → Except Err St
  | [], s => .ok s
  | m :: ms, s =>
    if find s m = some (some v) then
      match initModule S n 0 m false s with
      | .error e => .error e
      | .ok (s, _) => initModules S n v ms s
    else initModules S n v ms s

/-- `load_root` (file.cxx 1739-1914): what it does with modules. -/
def loadRoot (S : Sys) (n : Nat) (rootBuild : Prog) (s : St) : Except Err St :=
  let ms := s.loaded.map Prod.fst
  match initModules S n .first ms s with
  | .error e => .error e
  | .ok s =>
  match initModules S n .second ms s with
  | .error e => .error e
  | .ok s =>
  match initModules S n .before ms s with
  | .error e => .error e
  | .ok s =>
  match exec S (initModule S n) rootBuild { s with log := s.log ++ [.rootBuild] } with
  | .error e => .error e
  | .ok (s, _) => initModules S n .after ms s

/-- A project: the modules that its bootstrap file boots, then `load_root`, then buildfiles.
Built on `loadRoot` (file.cxx 1739-1914). -/
def project (S : Sys) (n : Nat) (boot : List Nat) (rootBuild rest : Prog) : Except Err St :=
  match boot.foldlM (fun s m => bootModule S n m s) ⟨[], [], []⟩ with
  | .error e => .error e
  | .ok s =>
  match loadRoot S n rootBuild s with
  | .error e => .error e
  | .ok s =>
  match exec S (initModule S n) rest s with
  | .error e => .error e
  | .ok (s, _) => .ok s

end Verif.Modules
