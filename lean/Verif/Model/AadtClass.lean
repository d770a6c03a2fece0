import Verif.Model.AssembledADT
/-!
# The classes `AssembledADT[T, Assembler, BitVector]` as objects

`peak/assembler/assembled_adt.py:132-239, 328-354`; `peak/assembler2/assembled_adt.py:31-113, 210-236` has the same code for everything here.
`A` stands for the assemblers of the process, as in `Model/AssembledADT.lean`. hwtypes' `BoundMeta` gives the same class object for equal parameters, so a class is its parameters.
-/

namespace Peak.Cl

/-- `m.Direction` (magma, not in /repo; assembled_adt.py:328-354) -/
inductive Dir | In | Out | InOut | Undirected
  deriving DecidableEq

/-- Which of `BitVector`, `Signed`, `Unsigned` of its family a bit-vector class belongs to (family.py:53-67, 261-275). -/
inductive Sgn | plain | signed | unsigned
  deriving DecidableEq

/-- `cls.fields[1:]`: assembler, bit-vector type, and for `MagmaADT` the direction (peak/assembler/assembled_adt.py:132-167, 328-354). -/
structure Params where
  assembler : Nat
  bvType : Nat
  dir : Option Dir
  deriving DecidableEq

/-- A class: `fam.Bit`, `fam.BitVector[w]` / `fam.Signed[w]` / `fam.Unsigned[w]`, or an assembled ADT (hwtypes and assembled_adt.py:132-239). -/
inductive Cls
  | bit (fam : Nat)
  | bv (fam : Nat) (s : Sgn) (w : Nat)
  | adt (t : Ty) (p : Params)
  deriving DecidableEq

/-- What the first parameter may be: a class, or (from `getattr(E, name)`) a member of an Enum (assembled_adt.py:133-150). -/
inductive First
  | ty (t : Ty)
  | member (e : EVal)

/-- hwtypes: the family of a bit-vector type, the signedness of a bit-vector class, `is_modified` (not in /repo; used at assembled_adt.py:133-150). -/
structure Env where
  fam : Nat → Nat
  sgn : Nat → Sgn
  modified : Ty → Bool

/-- `AssembledADT[first, assembler, bv_type]` (assembled_adt.py:172-190), with the class creation of 133-138: the assembler is built first; it refuses anything but a class (assembler.py:37-38). -/
def index (E : Env) (A : Ty → Except Err AsmObj) (f : First) (p : Params) : Except Err Cls :=
  match f with
  | .member _ => .error .typeError
  | .ty (.bit _) => .ok (.bit (E.fam p.bvType))
  | .ty (.bv c w) => .ok (.bv (E.fam p.bvType) (E.sgn c) w)
  | .ty t =>
    match A t with
    | .error e => .error e
    | .ok _ => if E.modified t then .error .typeError else .ok (.adt t p)

/-- `cls[key]` of a bound class (peak/assembler/assembled_adt.py:169-171): `cls.adt_t[key]` is the field of a tuple or the option of a `Sum` (hwtypes). -/
def getitem (E : Env) (A : Ty → Except Err AsmObj) (t : Ty) (p : Params) (k : Key) : Except Err Cls :=
  match t.fieldDict.lookup k with
  | none => .error .keyError
  | some tf => index E A (.ty tf) p

/-- Attributes a class has on its own, found before `__getattr__` (peak/assembler/assembled_adt.py:192-197) is asked. -/
inductive Own
  | adtT          -- 221-223
  | assemblerT    -- 225-227
  | bvType        -- 229-231
  | fields        -- hwtypes
  | other (n : Nat)
  deriving DecidableEq

/-- The value of `cls.<name>` (assembled_adt.py:192-197, 221-231). -/
inductive Attr
  | own (o : Own)
  | cls (c : Cls)
  deriving DecidableEq

/-- `cls.<name>` (peak/assembler/assembled_adt.py:192-197). `own` says which names are attributes of the class or its metaclass. A name of an Enum class stands for the member at that position. -/
def getattr (E : Env) (A : Ty → Except Err AsmObj) (own : Key → Option Own) (t : Ty) (p : Params) (k : Key) : Except Err Attr :=
  match own k with
  | some o => .ok (.own o)
  | none =>
    match t with
    | .enum _ ms =>
      match ms[k]? with
      | none => .error .attributeError
      | some e => (index E A (.member e) p).map .cls
    | t =>
      match t.fieldDict.lookup k with
      | none => .error .attributeError
      | some tf => (index E A (.ty tf) p).map .cls

/-- `T in cls` (peak/assembler/assembled_adt.py:199-200) for the class `T` of an option: hwtypes looks for it in the fields. -/
def contains (t : Ty) (tf : Ty) : Bool := t.fieldDict.any (fun f => decide (f.2 = tf))

/-- The other operand of `==` (assembled_adt.py:202-213). -/
inductive Other
  | cls (c : Cls)
  | ty (t : Ty)
  | member (e : EVal)
  | value (b : BV)

/-- Python values `==` and `!=` give here (assembled_adt.py:202-216). -/
inductive Res
  | bool (b : Bool)
  | bit (b : Bool)
  | int (i : Int)
  deriving DecidableEq

/-- `if x:` (Python; used at assembled_adt.py:215-216) -/
def Res.truthy : Res → Bool
  | .bool b => b
  | .bit b => b
  | .int i => decide (i ≠ 0)

/-- `cls == other` (peak/assembler/assembled_adt.py:202-213) with Python's fallback: when both sides return `NotImplemented`, identity decides. Bit and bit-vector classes are not `BoundMeta`.
`cls.adt_t` is never an Enum member (`index`), so 208-211 are not reached. -/
def eq (t : Ty) (p : Params) : Other → Res
  | .cls (.adt t' p') => .bool (decide (t = t' ∧ p = p'))
  | .cls _ => .bool false
  | .ty (.bit _) => .bool false
  | .ty (.bv _ _) => .bool false
  | .ty t' => .bit (decide (t = t'))
  | .member _ => .bit false
  | .value _ => .bool false

/-- `~x` (peak/assembler/assembled_adt.py:215-216): of a `bool` it is the int `-1 - x`. -/
def inv : Res → Res
  | .bool b => .int (-1 - (if b then 1 else 0))
  | .bit b => .bit (!b)
  | .int i => .int (-1 - i)

/-- `cls != other` (peak/assembler/assembled_adt.py:215-216) -/
def ne (t : Ty) (p : Params) (o : Other) : Res := inv (eq t p o)

/-- `_qualify_magma_` (peak/assembler/assembled_adt.py:335-336) -/
def qualify (E : Env) (A : Ty → Except Err AsmObj) (t : Ty) (p : Params) (d : Dir) : Except Err Cls := index E A (.ty t) { p with dir := some d }

/-- `_flip_magma_` (peak/assembler/assembled_adt.py:338-345) -/
def flip (E : Env) (A : Ty → Except Err AsmObj) (t : Ty) (p : Params) : Except Err Cls :=
  if p.dir = some .In then index E A (.ty t) { p with dir := some .Out }
  else if p.dir = some .Out then index E A (.ty t) { p with dir := some .In }
  else .ok (.adt t p)

/-- `x != y` for instances (peak/assembler/assembled_adt.py:316-317): `~(x == y)`; when both sides return `NotImplemented` the comparison is by identity, and `y` is not `x`. -/
def instNe (A : Ty → Except Err AsmObj) (t : Ty) (b : BV) (y : Arg) : Except Err Res :=
  match AV.eq A t b y with
  | .error e => .error e
  | .ok (some r) => .ok (inv (.bit r))
  | .ok none => .ok (inv (.bool false))

end Peak.Cl
