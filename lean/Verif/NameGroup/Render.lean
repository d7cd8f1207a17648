import Verif.NameGroup.Model
/-! # How the syntax is written as tokens -/

namespace Verif.NameGroup

/-- The value of an expansion. -/
def valOf : Option (List Elem) → Val
  | none => ⟨true, none, [], false⟩
  | some es => ⟨false, none, flat es, false⟩

/-- The token of a part. -/
def Part.tok (sp : Bool) : Part → Tok
  | .lit s q => .word sp s q
  | .null => .exp sp (valOf none)
  | .empty => .exp sp (valOf (some []))
  | .name s => .exp sp (valOf (some [.single (Name.plain s)]))
  | .dir d => .exp sp (valOf (some [.single ⟨none, d, [], []⟩]))

/-- The tokens of a word: its parts are not separated. -/
def partToks (sp : Bool) : List Part → List Tok
  | [] => []
  | p :: ps => p.tok sp :: ps.map (Part.tok false)

/-- Whether the separator of a pair is separated: only if nothing is on the
left of it. -/
def lhsSep (sp : Bool) : Item → Bool
  | .absent => sp
  | _ => false

mutual
/-- The tokens of an item; `sp`: the first one is separated. -/
def Item.toks (sp : Bool) : Item → List Tok
  | .absent => []
  | .word w => partToks sp w.parts
  | .exp v => [.exp sp (valOf v)]
  | .group none gs => gs.toks sp
  | .group (some p) gs => partToks sp p.parts ++ gs.toks false
  | .pair l r => l.toks sp ++ .at (lhsSep sp l) :: r.toks false
/-- The tokens of a sequence: items are separated with white space. -/
def Seq.toks (sp : Bool) : Seq → List Tok
  | .nil => []
  | .cons i s => i.toks sp ++ s.toks true
/-- The tokens of adjacent groups. -/
def Groups.toks (sp : Bool) : Groups → List Tok
  | .one s => .lc sp :: (s.toks false ++ [.rc])
  | .more gs s => gs.toks sp ++ .lc false :: (s.toks false ++ [.rc])
end

end Verif.NameGroup
