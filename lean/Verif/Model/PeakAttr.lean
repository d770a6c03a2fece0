import Verif.Model.Basic
/-!
# The attribute protocol of Peak objects (peak/peak.py:32-69, peak/family.py:231-241)

Values are either ordinary objects or attribute registers (`gen_attr_register`), the objects that define `_peak_` and `_poke_`.
Registers live in a heap, so that several attributes may hold the same register.  Data descriptors on the class are not modelled:
attribute lookup takes the instance dictionary first and the class second.
-/

namespace Peak

/-- `_is_dunder` (peak.py:32-35).  `name[-3]` of a name longer than 4 is its third character from the end. -/
def isDunder (name : List Char) : Bool :=
  decide (name.length > 4) &&
  (name.take 2 == ['_', '_'] && name.drop (name.length - 2) == ['_', '_']) &&
  (name[2]? != some '_' && name[name.length - 3]? != some '_')

/-- An object stored in an attribute: anything without `_peak_`/`_poke_`, or the attribute register with number `r` (peak.py:48-53, family.py:231-241). -/
inductive Held (α : Type)
  | plain (v : α)
  | reg (r : Nat)
deriving DecidableEq, Repr

/-- A Peak instance together with the registers it can reach (peak.py:40-69). -/
structure PObj (α : Type) where
  /-- the instance dictionary (peak.py:40-69) -/
  dict : List (List Char × Held α)
  /-- attributes of the class (peak.py:40-69) -/
  cls : List (List Char × Held α)
  /-- content `self.value` of every attribute register (family.py:231-241) -/
  regs : Nat → α

variable {α : Type}

/-- `super().__getattribute__(attr)`; `none` stands for AttributeError (peak.py:43, 60). -/
def PObj.raw (o : PObj α) (attr : List Char) : Option (Held α) :=
  match o.dict.lookup attr with
  | some v => some v
  | none => o.cls.lookup attr

/-- `super().__setattr__(attr, value)` (peak.py:57, 62, 67). -/
def PObj.rawSet (o : PObj α) (attr : List Char) (v : Held α) : PObj α :=
  { o with dict := (attr, v) :: o.dict }

/-- `Peak.__getattribute__` (peak.py:42-53) with `_peak_` of family.py:240-241. -/
def PObj.get (o : PObj α) (attr : List Char) : Except Err (Held α) :=
  match o.raw attr with
  | none => .error .attributeError
  | some val =>
    if isDunder attr then .ok val
    else match val with
      | .plain v => .ok (.plain v)
      | .reg r => .ok (.plain (o.regs r))

/-- `_poke_` (family.py:235-238); `isT r v` is `isinstance(v, T)` for the type of register `r`, false of a register object. -/
def PObj.poke (isT : Nat → α → Bool) (o : PObj α) (r : Nat) (v : Held α) : Except Err Unit × PObj α :=
  match v with
  | .reg _ => (.error .typeError, o)
  | .plain v =>
    if isT r v then (.ok (), { o with regs := fun r' => if r' = r then v else o.regs r' })
    else (.error .typeError, o)

/-- `Peak.__setattr__` (peak.py:55-69). -/
def PObj.set (isT : Nat → α → Bool) (o : PObj α) (attr : List Char) (v : Held α) : Except Err Unit × PObj α :=
  if isDunder attr then (.ok (), o.rawSet attr v)
  else match o.raw attr with
    | none => (.ok (), o.rawSet attr v)
    | some (.reg r) => o.poke isT r v
    | some (.plain _) => (.ok (), o.rawSet attr v)

/-- One access (peak.py:42, 55). -/
inductive AttrOp (α : Type)
  | get (attr : List Char)
  | set (attr : List Char) (v : Held α)

/-- A sequence of accesses, errors included (they are exceptions the caller handles) (peak.py:42-69). -/
def PObj.exec (isT : Nat → α → Bool) (o : PObj α) : List (AttrOp α) → PObj α
  | [] => o
  | .get _ :: ops => PObj.exec isT o ops
  | .set a v :: ops => PObj.exec isT (o.set isT a v).2 ops

end Peak
