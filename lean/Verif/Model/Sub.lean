import Verif.Model.Assembler
/-!
# `Sub` (peak/assembler/assembler_abc.py:104-175): paths into an encoding
-/

namespace Peak

/-- A `Sub` object: the assembler (with its type) and the bit offset (assembler_abc.py:119-120).  The textual
`_path` (121-124) is not modelled. -/
structure SubObj where
  ty : Ty
  obj : AsmObj
  offset : Nat

/-- `isa.field_dict` (assembler_abc.py:143); empty for bit vectors and bits.  Enum members are not types:
`type(self.asm)(member)` raises, modelled as a bad path. -/
def Ty.fieldDict : Ty → List (Key × Ty)
  | .prod _ fs => fs.toList
  | .sum _ fs => fs.toList
  | _ => []

/-- `Assembler(T).sub` (assembler_abc.py:56-58; 107-124 with offset 0). -/
def AsmObj.sub (t : Ty) (o : AsmObj) : SubObj := ⟨t, o, 0⟩

/-- `Sub._get` with `Error = KeyError` (assembler_abc.py:139-149). -/
def SubObj.get (s : SubObj) (k : Key) (st : St) : Except Err SubObj × St :=
  match s.ty.fieldDict.lookup k with
  | none => (.error .keyError, st)
  | some field =>
    match field.build st with
    | (.error e, st) => (.error e, st)
    | (.ok o, st) =>
      match s.obj.layout.lookup k with
      | none => (.error .keyError, st)
      | some r => (.ok ⟨field, o, s.offset + r.1⟩, st)

/-- `Sub.__getitem__` (assembler_abc.py:130-137). -/
def SubObj.path : SubObj → List Key → St → Except Err SubObj × St
  | s, [], st => (.ok s, st)
  | s, k :: p, st =>
    match s.get k st with
    | (.error e, st) => (.error e, st)
    | (.ok s', st) => s'.path p st

/-- `Sub.idx` (assembler_abc.py:168-170). -/
def SubObj.idx (s : SubObj) : Nat × Nat := (s.offset, s.offset + s.obj.width)

/-- `Sub.tag_idx` (assembler_abc.py:173-175); `tag_layout = (0, tag_width)` (assembler.py:91-95); raises
TypeError for a type without tag. -/
def SubObj.tagIdx (s : SubObj) : Except Err (Nat × Nat) :=
  match s.obj.tag with
  | none => .error .typeError
  | some t => .ok (s.offset + 0, s.offset + t.width)

end Peak
