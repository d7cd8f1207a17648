import Verif.PrefixMap.Spec

/-!
# Headers that do not exist yet: model of the code

libbuild2/dyndep.cxx: `append_prefix` (245-359), `srcout_builder::next` (362-419), the part of
`enter_file_impl` that maps paths (693-818); libbuild2/cc/compile-rule.cxx: `append_prefixes`
(1702-1769). What `find` (446-651) comes to is a parameter: whether a target is declared and whether
it may be entered. Directories are absolute and canonical here.
-/

namespace Verif.PrefixMap

/-- dyndep.hxx:126 `prefix_value`. -/
structure Val where
  dir  : Dir
  prio : Nat
  deriving DecidableEq

/-- dyndep.hxx:132 `prefix_map`. Only the order of entries with the same key matters. -/
abbrev Map := List (Dir × Val)

/-- 263: the difference between the target directory and the include directory.
Used by `appendPrefix` (compile-rule.cxx:1763-1766). -/
def prefixOf (t d : Dir) : Dir := if d.isPrefixOf t then t.drop d.length else []

/-- 295-312: another entry for the prefixless. -/
def insPrio (d : Dir) (prio : Nat) : Map → Map
  | [] => [([], ⟨d, prio⟩)]
  | (k, v) :: m =>
    if k = [] ∧ v.prio > prio then ([], ⟨d, prio⟩) :: (k, v) :: m else (k, v) :: insPrio d prio m

/-- 313-341: there is already an entry. -/
def better (v : Val) (d : Dir) (prio : Nat) : Val :=
  if v.dir = d then (if v.prio > prio then ⟨v.dir, prio⟩ else v)
  else if v.prio ≤ prio then v
  else ⟨d, prio⟩

/-- 286-294, 313-341: an entry with a prefix. -/
def setKey (p d : Dir) (prio : Nat) : Map → Map
  | [] => [(p, ⟨d, prio⟩)]
  | (k, v) :: m => if k = p then (k, better v d prio) :: m else (k, v) :: setKey p d prio m

/-- 277-343 `enter`. -/
def enter (p d : Dir) (prio : Nat) (m : Map) : Map :=
  if p = [] then insPrio d prio m else setKey p d prio m

/-- 351-358: the prefix (of this length) and all the outer ones. -/
def enterAll (d : Dir) : Nat → Dir → Nat → Map → Map
  | 0, _, prio, m => enter [] d prio m
  | k + 1, p, prio, m => enterAll d k p.dropLast (prio + 1) (enter p d prio m)

/-- 246-359 `append_prefix`, with compile-rule.cxx:1763-1766. -/
def appendPrefix (m : Map) (o : Opt) : Map :=
  if o.root.isPrefixOf o.dir then
    enterAll o.dir (prefixOf o.target o.dir).length (prefixOf o.target o.dir) 0 m
  else m

/-- compile-rule.cxx:1773-1792 `build_prefix_map`. -/
def build (opts : List Opt) : Map := opts.foldl appendPrefix []

/-- 727 `sup_range`: the entries for the most qualified prefix of (the first components of) the
directory. Used by `lookup` (libbuild2/dyndep.cxx 724-770). -/
def supRange (m : Map) : Nat → Dir → List (Dir × Val)
  | 0, _ => m.filter fun e => decide (e.1 = [])
  | k + 1, d =>
    if (m.filter fun e => decide (e.1 = d)).isEmpty then supRange m k d.dropLast
    else m.filter fun e => decide (e.1 = d)

/-- 752-755. -/
def found (decl new : Dir → String → Bool) (d : Dir) (f : String) (e : Dir × Val) : Bool :=
  if e.1 = [] then decl (e.2.dir ++ d) f else decl (e.2.dir ++ d) f || new (e.2.dir ++ d) f

/-- 724-770: in what include directory. -/
def lookup (decl new : Dir → String → Bool) (m : Map) (d : Dir) (f : String) : Option Dir :=
  ((supRange m d.length d).find? (found decl new d f)).map fun e => e.2.dir

/-- 706 `normalize`, of a relative path: the latest component first.
Used by `mapRelative` (libbuild2/dyndep.cxx 697-770). -/
def normStep (acc : List String) (c : String) : List String :=
  if c = "." then acc
  else if c = ".." then
    match acc with
    | [] => [c]
    | x :: acc' => if x = ".." then c :: acc else acc'
  else c :: acc

/-- 697-770: a relative path. The result is the include directory and the normalized path. -/
def mapRelative (decl new : Dir → String → Bool) (m : Map) (path : List String) :
    Option (Dir × Dir × String) :=
  match path.foldl normStep [] with
  | [] => none
  | f :: rd =>
    if ".." ∈ f :: rd then none
    else (lookup decl new m rd.reverse f).map fun D => (D, rd.reverse, f)

/-- `srcout_builder`: the map, and the candidate with the rest of the directory.
Used by `next` (libbuild2/dyndep.cxx 362-419). -/
structure Srcout where
  map  : List (Dir × Dir)
  prev : Option (Base × Dir)
  deriving DecidableEq

/-- 396-413: consider as an output directory. -/
def candidate (scopeOf : Dir → Option Base) (d : Dir) : Option (Base × Dir) :=
  match scopeOf d with
  | none => none
  | some b => if b.out.isPrefixOf d then some (b, d.drop b.out.length) else none

/-- 386: `emplace` does nothing if there is one.
Used by `next` (libbuild2/dyndep.cxx 362-419). -/
def emplace (m : List (Dir × Dir)) (k v : Dir) : List (Dir × Dir) :=
  if m.any fun e => e.1 = k then m else m ++ [(k, v)]

/-- 378-380. -/
def isPair (b : Base) (diff d : Dir) : Bool :=
  b.src.isPrefixOf d && (diff = [] || d.drop b.src.length = diff)

/-- 362-419 `next`. Nothing is a directory that is relative or not normalized. `scopeOf` is the
base scope of a directory, unless it is not in a project or the project is not built out of
source. -/
def next (scopeOf : Dir → Option Base) (st : Srcout) : Option Dir → Srcout
  | none => { st with prev := none }
  | some d =>
    match st.prev with
    | none => { st with prev := candidate scopeOf d }
    | some (b, diff) =>
      if isPair b diff d then ⟨emplace st.map d (b.out ++ diff), none⟩
      else { st with prev := candidate scopeOf d }

/-- compile-rule.cxx:3393-3470: for all include directories. -/
def buildSrcout (scopeOf : Dir → Option Base) (dirs : List (Option Dir)) : List (Dir × Dir) :=
  (dirs.foldl (next scopeOf) ⟨[], none⟩).map

/-- 784 `find_sup`. Used by `remap` (libbuild2/dyndep.cxx 780-805). -/
def supFind (m : List (Dir × Dir)) : Nat → Dir → Option (Dir × Dir)
  | 0, _ => m.find? fun e => decide (e.1 = [])
  | k + 1, d =>
    match m.find? fun e => decide (e.1 = d) with
    | some e => some e
    | none => supFind m k d.dropLast

/-- 780-805: the directory that an existing header is remapped to. -/
def remap (decl : Dir → String → Bool) (m : List (Dir × Dir)) (d : Dir) (f : String) : Option Dir :=
  match supFind m d.length d with
  | none => none
  | some (k, o) =>
    if decl (o ++ d.drop k.length) f then some (o ++ d.drop k.length) else none

end Verif.PrefixMap
