import Verif.Model.Layout
import Verif.Model.Sub
import Verif.Model.Assembler2
/-!
# `peak/assembler/assembled_adt.py` and `peak/assembler2/assembled_adt.py`

One bit-vector family is modelled (the Python one); the magma classes (328-354) are not.  `A : Ty → Except Err AsmObj` stands for
the assembler of each type in the running process (`cls._assembler_`, line 136); nothing is assumed about when each was built.
-/

namespace Peak

/-- A value of type `AssembledADT[T, Assembler, BitVector]`.  Bits and bit vectors are not wrapped
(assembled_adt.py:177-187). -/
inductive AV
  | bit (b : Bool)
  | bits (b : BV)
  | adt (t : Ty) (value : BV)

/-- What a constructor may be called with: an unassembled or an assembled value (assembled_adt.py:55-65, 68-127). -/
inductive Arg
  | raw (v : Val)
  | asm (a : AV)

mutual
/-- `isinstance(v, T)`, computed (Python and hwtypes; used at assembled_adt.py:55-65, 152-163). -/
def Ty.isinst : Ty → Val → Bool
  | .bv _ w, .bits b => b.size == w
  | .bit _, .bit _ => true
  | .enum _ ms, .enum e => decide (e ∈ ms)
  | .prod _ fs, .prod vs => fs.isinstAll vs
  | .sum _ fs, .sum k v => fs.isinstAt k v
  | _, _ => false
/-- `isinstance` of the field values of a product (hwtypes; used at assembled_adt.py:55-65). -/
def Fields.isinstAll : Fields → List Val → Bool
  | .nil, [] => true
  | .cons _ t fs, v :: vs => t.isinst v && fs.isinstAll vs
  | _, _ => false
/-- `isinstance` of the value of a union at an option (hwtypes; used at assembled_adt.py:55-65). -/
def Fields.isinstAt : Fields → Key → Val → Bool
  | .nil, _, _ => false
  | .cons k' t fs, k, v => (k == k' && t.isinst v) || fs.isinstAt k v
end

/-- `AssembledADT.__init__` (assembled_adt.py:243-253, assembler2/assembled_adt.py:118-128). -/
def AV.init (width : Nat) (assemble : Val → Except Err BV) (t : Ty) : Arg → Except Err AV
  | .asm (.adt t' b) => if t' = t then .ok (.adt t b) else .error .typeError
  | .asm (.bits b) => if b.size = width then .ok (.adt t b) else .error .typeError
  | .asm (.bit _) => .error .typeError
  | .raw (.bits b) => if b.size = width then .ok (.adt t b) else .error .typeError
  | .raw v =>
    if t.isinst v then
      match assemble v with
      | .error e => .error e
      | .ok b => .ok (.adt t b)
    else .error .typeError

/-- `fam.Bit(x)` and `fam.BitVector[w](x)`, the constructors of the unwrapped classes (assembled_adt.py:178, 183-187).  Only
arguments of the same kind are modelled. -/
def AV.plain : Ty → Arg → Except Err AV
  | .bit _, .raw (.bit b) => .ok (.bit b)
  | .bit _, .asm (.bit b) => .ok (.bit b)
  | .bv _ w, .raw (.bits b) => .ok (.bits (BV.ofNat w b.val))
  | .bv _ w, .asm (.bits b) => .ok (.bits (BV.ofNat w b.val))
  | _, _ => .error .typeError

/-- `_as_bv` (assembled_adt.py:55-65). -/
def AV.asBv : AV → BV
  | .bit b => BV.ofNat 1 b.toNat
  | .bits b => b
  | .adt _ b => b

/-- The end of `_product_from_fields`, `_tuple_from_fields` (assembled_adt.py:113-116, 123-127): lay the fields out and wrap. -/
def AV.fromParts (o : AsmObj) (t : Ty) (bvs : List BV) (dflt : Nat) : Except Err AV :=
  match createFromLayout o.width ((o.layout.map (·.2)).zip bvs) dflt .typeError with
  | .error e => .error e
  | .ok b => AV.init o.width o.assemble t (.asm (.bits b))

/-- `AssembledADT[T, ...](x)` with one positional argument (assembled_adt.py:152-163, 168-190).  After a TypeError the call is retried
as `from_fields(x)`, which itself is a TypeError except for a product or tuple with one field. -/
def AV.new (A : Ty → Except Err AsmObj) : Ty → Arg → Except Err AV
  | .bit c, a => AV.plain (.bit c) a
  | .bv c w, a => AV.plain (.bv c w) a
  | .enum c ms, a =>
    match A (.enum c ms) with
    | .error e => .error e
    | .ok o => AV.init o.width o.assemble (.enum c ms) a
  | .sum c fs, a =>
    match A (.sum c fs) with
    | .error e => .error e
    | .ok o => AV.init o.width o.assemble (.sum c fs) a
  | .prod c fs, a =>
    match A (.prod c fs) with
    | .error e => .error e
    | .ok o =>
      match AV.init o.width o.assemble (.prod c fs) a with
      | .error .typeError =>
        match fs with
        | .cons k t .nil =>
          match AV.new A t a with
          | .error e => .error e
          | .ok f => AV.fromParts o (.prod c (.cons k t .nil)) [f.asBv] 0
        | _ => .error .typeError
      | r => r

/-- `{k: getattr(cls, k)(v) ...}` as bit vectors (assembled_adt.py:112, 124). -/
def AV.newFields (A : Ty → Except Err AsmObj) : Fields → List Arg → Except Err (List BV)
  | .nil, [] => .ok []
  | .cons _ t fs, a :: as =>
    match AV.new A t a with
    | .error e => .error e
    | .ok f =>
      match AV.newFields A fs as with
      | .error e => .error e
      | .ok bs => .ok (f.asBv :: bs)
  | _, _ => .error .typeError

/-- `from_fields` of products and tuples, arguments in declaration order (assembled_adt.py:107-127), and of enums (129-130). -/
def AV.fromFields (A : Ty → Except Err AsmObj) (t : Ty) (args : List Arg) (dflt : Nat) : Except Err AV :=
  match t with
  | .prod c fs =>
    match A (.prod c fs) with
    | .error e => .error e
    | .ok o =>
      match AV.newFields A fs args with
      | .error e => .error e
      | .ok bs => AV.fromParts o (.prod c fs) bs dflt
  | .enum c ms =>
    match args with
    | [a] => AV.new A (.enum c ms) a
    | _ => .error .typeError
  | _ => .error .typeError

/-- `from_fields` of unions (assembled_adt.py:68-103): `from_fields(k, value)` of a `Sum`, `from_fields(k=value)` of a
`TaggedUnion`, with the optional `tag_bv`. -/
def AV.fromOption (A : Ty → Except Err AsmObj) (t : Ty) (k : Key) (a : Arg) (tagBv : Option BV) (dflt : Nat) :
    Except Err AV :=
  match t with
  | .sum c fs =>
    match A (.sum c fs) with
    | .error e => .error e
    | .ok o =>
      match fs.toList.lookup k with
      | none => .error .keyError
      | some tf =>
        match AV.new A tf a with                                          -- 73, 81
        | .error e => .error e
        | .ok f =>
          match (match tagBv with                                         -- 88-89
            | some b => Except.ok b
            | none => o.assembleTag k) with
          | .error e => .error e
          | .ok tag =>
            match o.layout.lookup k, o.tag with                            -- 96-99
            | some r, some tg =>
              match createFromLayout o.width [(r, f.asBv), ((0, tg.width), tag)] dflt .typeError with
              | .error e => .error e
              | .ok b => AV.init o.width o.assemble (.sum c fs) (.asm (.bits b))
            | _, _ => .error .keyError
  | _ => .error .typeError

/-- `bv[i]` for an int `i` (hwtypes) (used at assembled_adt.py:261-295). -/
def BV.getBit (b : BV) (i : Nat) : Except Err Bool := if i < b.size then .ok (b.val.testBit i) else .error .indexError

/-- The part of `_get` common to products and unions (assembled_adt.py:261-272): the field's bits, wrapped in the field's
type. -/
def AV.sub (A : Ty → Except Err AsmObj) (o : AsmObj) (t : Ty) (b : BV) (k : Key) : Except Err AV :=
  match t.fieldDict.lookup k with                                          -- assembler_abc.py:142-145
  | none => .error .keyError
  | some tf =>
    match A tf with                                                        -- assembler_abc.py:147
    | .error e => .error e
    | .ok f =>
      match o.layout.lookup k with                                          -- assembler_abc.py:148
      | none => .error .keyError
      | some r =>
        match tf with
        | .bit _ =>
          match (b.slice r.1 (r.1 + f.width)).getBit 0 with                 -- 266
          | .error e => .error e
          | .ok x => .ok (.bit x)
        | tf => AV.new A tf (.asm (.bits (b.slice r.1 (r.1 + f.width))))    -- 268

/-- `x[k]` / `x.k` for a product or tuple (assembled_adt.py:255-275). -/
def AV.get (A : Ty → Except Err AsmObj) (x : AV) (k : Key) : Except Err AV :=
  match x with
  | .adt (.prod c fs) b =>
    match A (.prod c fs) with
    | .error e => .error e
    | .ok o => AV.sub A o (.prod c fs) b k
  | _ => .error .attributeError

/-- `x[k]` / `x.k` for a union: the `Match` object as a pair `(match, value)` (assembled_adt.py:274-295). -/
def AV.getOption (A : Ty → Except Err AsmObj) (x : AV) (k : Key) : Except Err (Bool × AV) :=
  match x with
  | .adt (.sum c fs) b =>
    match A (.sum c fs) with
    | .error e => .error e
    | .ok o =>
      match AV.sub A o (.sum c fs) b k with
      | .error e => .error e
      | .ok f =>
        match (o.sub (.sum c fs)).tagIdx with                               -- 277
        | .error e => .error e
        | .ok r =>
          match o.assembleTag k with                                        -- 288-289
          | .error e => .error e
          | .ok tag => .ok (decide (b.slice r.1 r.2 = tag), f)              -- 294-295
  | _ => .error .attributeError

/-- `x == y` for an assembled ADT `x` (assembled_adt.py:304-314); `none` is `NotImplemented`.  Comparing two vectors of the
same width compares their values. -/
def AV.eq (A : Ty → Except Err AsmObj) (t : Ty) (b : BV) (y : Arg) : Except Err (Option Bool) :=
  match A t with
  | .error e => .error e
  | .ok o =>
    match y with
    | .asm (.adt t' b') => .ok (if t' = t then some (b.val == b'.val) else none)
    | .asm (.bits b') => .ok (if b'.size = o.width then some (b.val == b'.val) else none)
    | .asm (.bit _) => .ok none
    | .raw (.bits b') => .ok (if b'.size = o.width then some (b.val == b'.val) else none)
    | .raw v =>
      if t.isinst v then
        match o.assemble v with
        | .error e => .error e
        | .ok b' => .ok (some (b.val == b'.val))
      else .ok none

/-! ## `assembler2/assembled_adt.py` -/

/-- `AssembledADT[T, ...](x)` of assembler2 (assembler2/assembled_adt.py:42-64, 118-128): no retry. -/
def AV.new2 (t : Ty) (a : Arg) : Except Err AV :=
  match t with
  | .bit c => AV.plain (.bit c) a
  | .bv c w => AV.plain (.bv c w) a
  | t =>
    match t.build2 with
    | .error e => .error e
    | .ok o => AV.init o.width o.asm t a

/-- The wrapped field (assembler2/assembled_adt.py:137-146). -/
def AV.sub2 (o : Asm2) (t : Ty) (b : BV) (k : Key) : Except Err AV :=
  match o.extract b (.name k) with
  | .error e => .error e
  | .ok field =>
    match t.fieldDict.lookup k with
    | none => .error .keyError
    | some tf =>
      match tf with
      | .bit _ =>
        if field.size = 1 then
          match field.getBit 0 with
          | .error e => .error e
          | .ok x => .ok (.bit x)
        else .error .assertionError
      | tf => AV.new2 tf (.asm (.bits field))

/-- assembler2/assembled_adt.py:136-149 -/
def AV.get2 (x : AV) (k : Key) : Except Err AV :=
  match x with
  | .adt (.prod c fs) b =>
    match (Ty.prod c fs).build2 with
    | .error e => .error e
    | .ok o => AV.sub2 o (.prod c fs) b k
  | _ => .error .attributeError

/-- assembler2/assembled_adt.py:136-152 -/
def AV.getOption2 (x : AV) (k : Key) : Except Err (Bool × AV) :=
  match x with
  | .adt (.sum c fs) b =>
    match (Ty.sum c fs).build2 with
    | .error e => .error e
    | .ok o =>
      match AV.sub2 o (.sum c fs) b k with
      | .error e => .error e
      | .ok f =>
        match o.mtch b (.name k) with
        | .error e => .error e
        | .ok m => .ok (m, f)
  | _ => .error .attributeError

end Peak
