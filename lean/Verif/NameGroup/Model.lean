import Verif.NameGroup.Spec
/-!
# The parser of names

`parser::parse_names`, `parse_names_trailer`, `splice_names`, and
`append_name` of `libbuild2/parser.cxx`.

Not modelled: name patterns (the pattern mode is `ignore`; what a pattern
expands to is in `Verif.NamePat`), the chunking mode, the pre-parse mode,
attributes, how the value of an expansion is computed (a token carries
it), and the value's NULL/type that is returned besides the names.
-/

namespace Verif.NameGroup

/-- A name with the flag that says that it is the first half of a pair.
Models `name::pair` (libbuild2/name.hxx). -/
abbrev FName := Name × Bool

/-- The value of an expansion as a list of names: `null`, its type, its
names (with an empty simple value reduced to no names), and whether it is
such an empty simple value. Models what `reverse ()` returns
(libbuild2/parser.cxx 10056-10066). -/
structure Val where
  null : Bool
  ty : Option Nat
  names : List FName
  emptySimple : Bool
deriving DecidableEq

/-- The tokens: a word and whether it is quoted, an expansion (all of its
tokens), braces, the pair separator, and the end. `sep`: separated with
white space from what precedes. Models `token` (libbuild2/token.hxx). -/
inductive Tok where
  | word (sep : Bool) (text : Str) (quoted : Bool)
  | exp (sep : Bool) (v : Val)
  | lc (sep : Bool)
  | rc
  | at (sep : Bool)
  | eos
deriving DecidableEq

/-- The failures of the parser. `fuel` is not one of them: it stands for
the recursion being cut short and is shown not to occur.
Used by `appendName` (libbuild2/parser.cxx 7806-7830). -/
inductive Err where
  | nestedProject | nestedType | nestedPair | nestedAbsolute
  | invalidProject | invalidPath | typedEmpty | doublePair | multipleLhs
  | expectedName | expectedBrace | concat | fuel
deriving DecidableEq, Repr

/-- Typed concatenation, which is implemented in terms of functions
(`$builtin.concat ()`): the type and the name of the result. `word`: the
string for a value of this type, if it can be interpreted as a name.
Used by `catWord` (libbuild2/parser.cxx 8978-9010, 9992-10030). -/
structure Typed where
  cat : Option Nat → Name → Val → Option (Nat × Name)
  word : Nat → Name → Option Str

/-- libbuild2/parser.cxx 7806-7830 `append_name`. -/
def appendName (ns : List FName) (p : Option Str) (d t v : Str) :
    Except Err (List FName) :=
  if d = [] ∧ v = [] ∧ t ≠ [] then .error .typedEmpty
  else .ok (ns ++ [(⟨p, d, t, v⟩, false)])

/-- libbuild2/parser.cxx 7870-7880: the project of a name that is
spliced. -/
def spliceProj (c : Ctx) (n : Name) : Except Err (Option Str) :=
  match n.proj with
  | some q => if c.proj.isSome then .error .nestedProject else .ok (some q)
  | none => .ok c.proj

/-- `*dp / dir`, or `dir` if there is no `dp`.
Used by `spliceDir` (libbuild2/parser.cxx 7884-7900). -/
def joinDir (e : Env) (dp : Option Str) (d : Str) : Except Err Str :=
  match dp with
  | none => .ok d
  | some b =>
    match e.join b d with
    | some d => .ok d
    | none => .error .invalidPath

/-- libbuild2/parser.cxx 7884-7900: its directory. -/
def spliceDir (e : Env) (c : Ctx) (n : Name) : Except Err Str :=
  if n.dir ≠ [] then
    if c.dir.isSome ∧ e.absolute n.dir then .error .nestedAbsolute
    else joinDir e c.dir n.dir
  else .ok (c.dir.getD [])

/-- libbuild2/parser.cxx 7904-7914: its type. -/
def spliceType (c : Ctx) (n : Name) : Except Err Str :=
  if n.type ≠ [] then
    (if c.type.isSome then .error .nestedType else .ok n.type)
  else .ok (c.type.getD [])

/-- libbuild2/parser.cxx 7922-7934: if this is the second half of a pair,
another first half unless this is the first instance. -/
def spliceHalf (pairn : Nat) (pr : Bool) (ns : List FName) :
    Except Err (List FName) :=
  if pairn ≠ 0 then
    if pr then .error .nestedPair
    else if pairn ≠ ns.length then
      -- ns.push_back (ns[pairn - 1])
      .ok (ns ++ (ns[pairn - 1]?).toList)
    else .ok ns
  else .ok ns

/-- `ns.back ().pair = pr`. Used by `spliceLoop` (libbuild2/parser.cxx 7866-7944). -/
def setPair (pr : Bool) (ns : List FName) : List FName :=
  ns.dropLast ++ (ns.getLast?.map fun x => (x.1, pr)).toList

/-- libbuild2/parser.cxx 7866-7944: the loop of `splice_names`; `pairn` is
the index plus one of the first half of the pair or zero. -/
def spliceLoop (e : Env) (c : Ctx) (pairn : Nat) :
    List FName → List FName → Except Err (List FName)
  | ns, [] => .ok ns
  | ns, (n, pr) :: nv => do
    let p ← spliceProj c n
    let d ← spliceDir e c n
    let t ← spliceType c n
    let ns ← spliceHalf pairn pr ns
    let ns ← appendName ns p d t n.value
    spliceLoop e c pairn (setPair pr ns) nv

/-- libbuild2/parser.cxx 7838-7947 `splice_names`: the names and how many
were added. -/
def splice (e : Env) (c : Ctx) (pairn : Nat) (ns nv : List FName) :
    Except Err (List FName × Nat) :=
  if nv.length = 0 then
    .ok (if pairn ≠ 0 then ns.dropLast else ns, 0)
  else do
    let r ← spliceLoop e c pairn ns nv
    .ok (r, r.length - ns.length)

/-- The position of the last character that satisfies `p`
(`std::string::find_last_of`, `rfind`).
Used by `wordProject` (libbuild2/parser.cxx 9022-9078). -/
def lastIdx (p : Char → Bool) : Str → Option Nat
  | [] => none
  | x :: s =>
    match lastIdx p s with
    | some i => some (i + 1)
    | none => if p x then some 0 else none

/-- libbuild2/parser.cxx 8543-8548 `name_separators`. -/
def isSep (x : Char) : Bool := x = '/' || x = '%'

/-- libbuild2/parser.cxx 9022-9078: the project of a word, the rest of it,
and the position of the last separator in the rest. The position before
`pos` is only searched if `pos` is that of a slash; for a slash at position
zero the search covers the whole string, which then has no `%`. -/
def wordProject (e : Env) (c : Ctx) (val : Str) (quoted : Bool) :
    Except Err (Option Str × Str × Option Nat) :=
  match lastIdx isSep val with
  | none => .ok (c.proj, val, none)
  | some pos =>
    let last := val[pos]? = some '%'
    match (if last then some pos else lastIdx (· = '%') (val.take pos)) with
    | none => .ok (c.proj, val, some pos)
    | some q =>
      let proj := val.take q
      if proj ≠ [] ∧ e.validProj proj = false then
        if quoted then .ok (c.proj, val, some pos)
        else .error .invalidProject
      else if c.proj.isSome then .error .nestedProject
      else .ok (some proj, val.drop (q + 1),
        if last then none else some (pos - (q + 1)))

/-- libbuild2/parser.cxx 9080: `size` (`pos == size` says that the last
separator is the last character). -/
def atEnd (val : Str) (pos : Option Nat) : Bool :=
  match pos with
  | none => false
  | some i => i = val.length - 1

/-- `dir_path (val)`. Used by `wordPrefix` (libbuild2/parser.cxx 9085-9152). -/
def toDir (e : Env) (s : Str) : Except Err Str :=
  match e.mkDir s with
  | some d => .ok d
  | none => .error .invalidPath

/-- libbuild2/parser.cxx 9085-9152: the qualification for the group that
follows a word. -/
def wordPrefix (e : Env) (c : Ctx) (p : Option Str) (val : Str)
    (pos : Option Nat) : Except Err Ctx :=
  if atEnd val pos = false ∧ c.type.isSome then .error .nestedType
  else
    match pos with
    | none => .ok ⟨p, c.dir, some val⟩
    | some i =>
      if atEnd val pos then do
        let d ← joinDir e c.dir (← toDir e val)
        .ok ⟨p, some d, c.type⟩
      else do
        let d ← joinDir e c.dir (← toDir e (val.take (i + 1)))
        .ok ⟨p, some d, some (val.drop (i + 1))⟩

/-- libbuild2/parser.cxx 9395-9466: a word that is a name. -/
def wordAppend (e : Env) (c : Ctx) (ns : List FName) (p : Option Str)
    (val : Str) (pos : Option Nat) : Except Err (List FName) :=
  match (if atEnd val pos then e.exactDir val else none) with
  | some d => do
    let d ← joinDir e c.dir d
    appendName ns p d (c.type.getD []) []
  | none => appendName ns p (c.dir.getD []) (c.type.getD []) val

/-- The next token is an unseparated word or expansion (the negation of
`last_concat`, libbuild2/parser.cxx 8789-8803). -/
def continues : List Tok → Bool
  | .word false _ _ :: _ => true
  | .exp false _ :: _ => true
  | _ => false

/-- The next token is an unseparated `{`. Used by `loop` (libbuild2/parser.cxx 8551-10200). -/
def lcNext : List Tok → Bool
  | .lc false :: _ => true
  | _ => false

/-- The next token is separated (`peeked ().separated`).
Used by `atSep` (libbuild2/parser.cxx 10104-10150). -/
def sepNext : List Tok → Bool
  | .word s _ _ :: _ => s
  | .exp s _ :: _ => s
  | .lc s :: _ => s
  | .at s :: _ => s
  | _ => false

/-- Is the last name the first half of a pair (`ns.back ().pair`)?
Used by `finish` (libbuild2/parser.cxx 10182-10195). -/
def lastPair (ns : List FName) : Bool :=
  match ns.getLast? with
  | some x => x.2
  | none => false

/-- The state of the loop in `parse_names`: the names, the number of names
in the last group, the concatenation (its type, value, and whether a part
is quoted), and whether this is the first iteration (libbuild2/parser.cxx
8586-8594, 8760-8767). -/
structure St where
  ns : List FName
  count : Nat
  cc : Option (Option Nat × Name × Bool)
  first : Bool

/-- libbuild2/parser.cxx 8978-9010, 9992-10030: one more part of a
concatenation, a word. -/
def catWord (ty : Typed) (cc : Option (Option Nat × Name × Bool))
    (val : Str) (quoted : Bool) : Except Err (Option Nat × Name × Bool) :=
  match cc with
  | none => .ok (none, Name.plain val, quoted)
  | some (none, n, q) => .ok (none, { n with value := n.value ++ val }, quoted || q)
  | some (some t, n, q) =>
    match ty.cat (some t) n ⟨false, none, [(Name.plain val, false)], false⟩ with
    | some (t, n) => .ok (some t, n, quoted || q)
    | none => .error .concat

/-- libbuild2/parser.cxx 8617-8687, 9958-10035: one more part of a
concatenation, an expansion. A typed value that is quoted is taken to be
converted to an untyped one already. -/
def catExp (ty : Typed) (cc : Option (Option Nat × Name × Bool)) (v : Val) :
    Except Err (Option Nat × Name × Bool) :=
  let l := cc.getD (none, Name.plain [], false)
  if l.1.isSome || v.ty.isSome then
    if cc.isSome then
      match ty.cat l.1 l.2.1 v with
      | some (t, n) => .ok (some t, n, l.2.2)
      | none => .error .concat
    else if v.null then .ok (v.ty, Name.plain [], l.2.2)
    else match v.names with
      | [] => .ok (v.ty, Name.plain [], l.2.2)
      | [x] => .ok (v.ty, x.1, l.2.2)
      | _ => .error .concat
  else if v.null then .ok l
  else match v.names with
    | [] => .ok l
    | [(n, _)] =>
      if n.proj.isSome then .error .concat
      else if n.type ≠ [] then .error .concat
      else if n.dir ≠ [] then
        if n.value ≠ [] then .error .concat
        else .ok (none, { l.2.1 with value := l.2.1.value ++ n.dir }, l.2.2)
      else .ok (none, { l.2.1 with value := l.2.1.value ++ n.value }, l.2.2)
    | _ => .error .concat

/-- The names of a value that is spliced (libbuild2/parser.cxx
10054-10066): an empty simple value is one empty name if it is the second
half of a pair. -/
def valNames (v : Val) (pair : Bool) : List FName :=
  if pair && v.emptySimple then [(Name.plain [], false)] else v.names

/-- An empty name with the qualification (libbuild2/parser.cxx 10118-10124,
10139-10145, 10171-10177, 10188-10194). -/
def appendEmpty (c : Ctx) (ns : List FName) : Except Err (List FName) :=
  appendName ns c.proj (c.dir.getD []) (c.type.getD []) []

/-- libbuild2/parser.cxx 10182-10195: after the loop. -/
def finish (c : Ctx) (ns : List FName) (ts : List Tok) :
    Except Err (List FName × List Tok) :=
  if lastPair ns then do
    .ok (← appendEmpty c ns, ts)
  else .ok (ns, ts)

/-- libbuild2/parser.cxx 8436-8440: `expected '}'`. -/
def closing (r : List FName × List Tok) : Except Err (List FName × List Tok) :=
  match r.2 with
  | .rc :: ts => .ok (r.1, ts)
  | _ => .error .expectedBrace

/-- libbuild2/parser.cxx 10112-10131: the left hand side of a pair. -/
def pairLhs (c : Ctx) (ns : List FName) (count : Nat) (sep : Bool) :
    Except Err (List FName × Nat) :=
  if sep ∨ count = 0 then do .ok (← appendEmpty c ns, 1)
  else if count > 1 then .error .multipleLhs
  else .ok (ns, count)

/-- libbuild2/parser.cxx 10104-10150: a pair separator. -/
def atSep (c : Ctx) (ns : List FName) (count : Nat) (sep : Bool)
    (ts : List Tok) : Except Err (List FName × Nat) :=
  if lastPair ns then .error .doublePair
  else do
    let r ← pairLhs c ns count sep
    if sepNext ts then do .ok (← appendEmpty c (setPair true r.1), 0)
    else .ok (setPair true r.1, r.2)

/-- libbuild2/parser.cxx 8489-8498: the qualification that a name gives to
the right hand side of a cross. -/
def promote (n : Name) : Except Err Ctx :=
  let d := if n.dir = [] then none else some n.dir
  if n.value ≠ [] then
    if n.type ≠ [] then .error .nestedType
    else .ok ⟨n.proj, d, some n.value⟩
  else .ok ⟨n.proj, d, if n.type = [] then none else some n.type⟩

/-- libbuild2/parser.cxx 8483-8504: the right hand side is parsed again for
every name of the left hand side; `p` parses it, `ts` are the tokens after
`{` and `after` those after the last `}`. -/
def replay (p : Ctx → List FName → List Tok → Except Err (List FName × List Tok))
    (ts : List Tok) : List FName → List FName → List Tok →
    Except Err (List FName × List Tok)
  | [], r, after => .ok (r, after)
  | l :: ls, r, _ => do
    let c ← promote l.1
    let (r, after) ← closing (← p c r ts)
    replay p ts ls r after

/-- libbuild2/parser.cxx 8513-8528: the names of the groups are added to the
result. -/
def addGroup (e : Env) (ns r : List FName) : Except Err (List FName) :=
  if ns.length ≠ 0 ∧ lastPair ns then do
    let x ← splice e Ctx.none ns.length ns r
    .ok x.1
  else .ok (ns ++ r)

mutual
/-- libbuild2/parser.cxx 8551-10200 `parse_names`: the loop. The parameter
`pairn` is left out: it is always zero, which is what every caller passes.
The first argument bounds the recursion, see `Err.fuel`. -/
def loop (e : Env) (ty : Typed) : Nat → Ctx → Bool → St → List Tok →
    Except Err (List FName × List Tok)
  | 0, _, _, _, _ => .error .fuel
  | f + 1, c, cross, st, ts =>
    match st.cc with
    | some cc =>
      if continues ts then
        match ts with
        | .word _ val q :: rest => do
          let cc ← catWord ty (some cc) val q
          loop e ty f c cross { st with cc := some cc, first := false } rest
        | .exp _ v :: rest => do
          let cc ← catExp ty (some cc) v
          loop e ty f c cross { st with cc := some cc, first := false } rest
        | _ => .error .fuel -- Not reached.
      else
        match cc with
        | (some t, n, q) =>
          if lcNext ts ∨ c.proj.isSome ∨ c.dir.isSome ∨ c.type.isSome then
            match ty.word t n with
            | some val => word e ty f c cross { st with cc := none } val q ts
            | none => .error .concat
          else
            -- Note: the count of names is left as it is.
            loop e ty f c cross
              { st with ns := st.ns ++ [(n, false)], cc := none, first := false } ts
        | (none, n, q) => word e ty f c cross { st with cc := none } n.value q ts
    | none =>
      match ts with
      | .word _ val q :: rest =>
        if continues rest then do
          let cc ← catWord ty none val q
          loop e ty f c cross { st with cc := some cc, first := false } rest
        else word e ty f c cross st val q rest
      | .exp _ v :: rest =>
        if continues rest ∨ lcNext rest then do
          let cc ← catExp ty none v
          loop e ty f c cross { st with cc := some cc, first := false } rest
        else if v.null then
          loop e ty f c cross { st with first := false } rest
        else
          let nv := valNames v (lastPair st.ns)
          if nv = [] then loop e ty f c cross { st with first := false } rest
          else do
            let (ns, count) ← splice e c 0 st.ns nv
            loop e ty f c cross
              { st with ns := ns, count := count, first := false } rest
      | .lc _ :: rest => do
        let (ns, count, rest) ← trailer e ty f c cross st.ns rest
        loop e ty f c cross
          { st with ns := ns, count := count, first := false } rest
      | .at sep :: rest => do
        let (ns, count) ← atSep c st.ns st.count sep rest
        loop e ty f c cross
          { st with ns := ns, count := count, first := false } rest
      | ts =>
        if st.first then
          match ts with
          | .rc :: _ => do finish c (← appendEmpty c st.ns) ts
          | _ => .error .expectedName
        else finish c st.ns ts
/-- libbuild2/parser.cxx 9022-9466: a word, followed by the tokens `ts`. -/
def word (e : Env) (ty : Typed) : Nat → Ctx → Bool → St → Str → Bool →
    List Tok → Except Err (List FName × List Tok)
  | 0, _, _, _, _, _, _ => .error .fuel
  | f + 1, c, cross, st, val, quoted, ts => do
    let (p, val, pos) ← wordProject e c val quoted
    if lcNext ts then do
      let c1 ← wordPrefix e c p val pos
      let (ns, count, rest) ← trailer e ty f c1 cross st.ns ts.tail
      loop e ty f c cross
        { st with ns := ns, count := count, first := false } rest
    else do
      let ns ← wordAppend e c st.ns p val pos
      loop e ty f c cross { st with ns := ns, count := 1, first := false } ts
/-- libbuild2/parser.cxx 8356-8531 `parse_names_trailer`: the names, how
many were added, and the tokens that follow. -/
def trailer (e : Env) (ty : Typed) : Nat → Ctx → Bool → List FName →
    List Tok → Except Err (List FName × Nat × List Tok)
  | 0, _, _, _, _ => .error .fuel
  | f + 1, c, cross, ns, ts => do
    let (r, ts) ← closing (← loop e ty f c false ⟨[], 0, none, true⟩ ts)
    let (r, ts) ← crosses e ty f cross r ts
    let ns' ← addGroup e ns r
    .ok (ns', ns'.length - ns.length, ts)
/-- libbuild2/parser.cxx 8462-8505: the loop over the crosses. -/
def crosses (e : Env) (ty : Typed) : Nat → Bool → List FName → List Tok →
    Except Err (List FName × List Tok)
  | 0, _, _, _ => .error .fuel
  | f + 1, cross, r, ts =>
    if cross ∧ lcNext ts then do
      let ts := ts.tail
      if r.length = 0 then do
        let (_, ts) ← closing (← loop e ty f Ctx.none false ⟨[], 0, none, true⟩ ts)
        crosses e ty f cross [] ts
      else do
        let (r, ts) ← replay
          (fun c r ts => loop e ty f c false ⟨r, 0, none, true⟩ ts) ts r [] ts
        crosses e ty f cross r ts
    else .ok (r, ts)
end

/-- libbuild2/parser.hxx 503-553: parse a sequence of names. The names and
the tokens that follow. -/
def parse (e : Env) (ty : Typed) (ts : List Tok) :
    Except Err (List FName × List Tok) :=
  loop e ty (4 * ts.length + 1) Ctx.none true ⟨[], 0, none, true⟩ ts

end Verif.NameGroup
