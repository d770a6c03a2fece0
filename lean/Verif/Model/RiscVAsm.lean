import Verif.Model.RiscV
/-!
# The RISC-V assembler helpers (examples/riscv/asm.py)

Python ints given as field values are `Int`; `None` is `none`.
-/

namespace Peak.RV

/-- The `data` of an instruction, with its layout class (asm.py:81). -/
inductive Data
  | R (d : R) | I (d : I) | Is (d : Is) | S (d : S) | U (d : U) | B (d : B) | J (d : J)
  deriving DecidableEq

/-- The `tag` of an instruction after unpacking `AluInst` (asm.py:82-83). -/
inductive Tag
  | arith (t : ArithInst) | shift (t : ShiftInst) | load (t : LoadInst) | branch (t : BranchInst)
  deriving DecidableEq

/-- The options of `isa.Inst` (isa.py:157). -/
inductive Top | OP | OP_IMM | LUI | AUIPC | JAL | JALR | Branch | Load | Store
  deriving DecidableEq

/-- The field names of `FIELDS` (asm.py:197), in order. -/
inductive Fld | rs1 | rs2 | rd | imm
  deriving DecidableEq

/-- The layout classes (isa.py:21-56). -/
inductive Layout | R | I | Is | S | U | B | J
  deriving DecidableEq

/-- `type(data)` (asm.py:193, 238) -/
def Data.layout : Data → Layout
  | .R _ => .R | .I _ => .I | .Is _ => .Is | .S _ => .S | .U _ => .U | .B _ => .B | .J _ => .J

/-- `getattr(data_type, name, None)`: the size of the field's type (isa.py:21-56). -/
def Layout.fieldSize : Layout → Fld → Option Nat
  | .R, .rs1 | .R, .rs2 | .R, .rd => some 5
  | .I, .rs1 | .I, .rd => some 5
  | .I, .imm => some 12
  | .Is, .rs1 | .Is, .rd => some 5
  | .Is, .imm => some 5
  | .S, .rs1 | .S, .rs2 => some 5
  | .S, .imm => some 12
  | .U, .rd => some 5
  | .U, .imm => some 20
  | .B, .rs1 | .B, .rs2 => some 5
  | .B, .imm => some 12
  | .J, .rd => some 5
  | .J, .imm => some 20
  | _, _ => none

/-- `getattr(data, name).as_uint()`, for the fields the layout has (asm.py:226, 241). -/
def Data.get : Data → Fld → Option Nat
  | .R d, .rs1 => some d.rs1.toNat
  | .R d, .rs2 => some d.rs2.toNat
  | .R d, .rd => some d.rd.toNat
  | .I d, .rs1 => some d.rs1.toNat
  | .I d, .rd => some d.rd.toNat
  | .I d, .imm => some d.imm.toNat
  | .Is d, .rs1 => some d.rs1.toNat
  | .Is d, .rd => some d.rd.toNat
  | .Is d, .imm => some d.imm.toNat
  | .S d, .rs1 => some d.rs1.toNat
  | .S d, .rs2 => some d.rs2.toNat
  | .S d, .imm => some d.imm.toNat
  | .U d, .rd => some d.rd.toNat
  | .U d, .imm => some d.imm.toNat
  | .B d, .rs1 => some d.rs1.toNat
  | .B d, .rs2 => some d.rs2.toNat
  | .B d, .imm => some d.imm.toNat
  | .J d, .rd => some d.rd.toNat
  | .J d, .imm => some d.imm.toNat
  | _, _ => none

/-- `data_type(**kwargs)`: a missing or surplus keyword raises TypeError.  Values are `field_type(n)`, kept as `n` and reduced here (asm.py:229). -/
def mkData (l : Layout) (kw : Fld → Option Nat) : Except Err Data :=
  match l, kw .rs1, kw .rs2, kw .rd, kw .imm with
  | .R, some rs1, some rs2, some rd, none => .ok (.R ⟨.ofNat 5 rd, .ofNat 5 rs1, .ofNat 5 rs2⟩)
  | .I, some rs1, none, some rd, some imm => .ok (.I ⟨.ofNat 5 rd, .ofNat 5 rs1, .ofNat 12 imm⟩)
  | .Is, some rs1, none, some rd, some imm => .ok (.Is ⟨.ofNat 5 rd, .ofNat 5 rs1, .ofNat 5 imm⟩)
  | .S, some rs1, some rs2, none, some imm => .ok (.S ⟨.ofNat 5 rs1, .ofNat 5 rs2, .ofNat 12 imm⟩)
  | .U, none, none, some rd, some imm => .ok (.U ⟨.ofNat 5 rd, .ofNat 20 imm⟩)
  | .B, some rs1, some rs2, none, some imm => .ok (.B ⟨.ofNat 5 rs1, .ofNat 5 rs2, .ofNat 12 imm⟩)
  | .J, none, none, some rd, some imm => .ok (.J ⟨.ofNat 5 rd, .ofNat 20 imm⟩)
  | _, _, _, _, _ => .error .typeError

/-- `_unpack` (asm.py:138-180) -/
def unpack : Inst → Data × Option Tag × Top
  | .OP d (.arith t) => (.R d, some (.arith t), .OP)
  | .OP d (.shift t) => (.R d, some (.shift t), .OP)
  | .OP_IMM (.arith d t) => (.I d, some (.arith t), .OP_IMM)
  | .OP_IMM (.shift d t) => (.Is d, some (.shift t), .OP_IMM)
  | .LUI d => (.U d, none, .LUI)
  | .AUIPC d => (.U d, none, .AUIPC)
  | .JAL d => (.J d, none, .JAL)
  | .JALR d => (.I d, none, .JALR)
  | .Branch d t => (.B d, some (.branch t), .Branch)
  | .Load d t => (.I d, some (.load t), .Load)
  | .Store d t => (.S d, some (.load t), .Store)

/-- `CONSTRUCTORS[T](data, tag)` followed by `isa.Inst(...)` (asm.py:87-125, 230-232).  A tag of another class than `ArithInst`, `ShiftInst`
is a KeyError in `attrs` (88-96); data or tag of the wrong class is a TypeError of the hwtypes constructor. -/
def construct : Top → Data → Option Tag → Except Err Inst
  | .OP_IMM, .I d, some (.arith t) => .ok (.OP_IMM (.arith d t))
  | .OP_IMM, .Is d, some (.shift t) => .ok (.OP_IMM (.shift d t))
  | .OP_IMM, _, some (.arith _) => .error .typeError
  | .OP_IMM, _, some (.shift _) => .error .typeError
  | .OP_IMM, _, _ => .error .keyError
  | .OP, .R d, some (.arith t) => .ok (.OP d (.arith t))
  | .OP, .R d, some (.shift t) => .ok (.OP d (.shift t))
  | .OP, _, some (.arith _) => .error .typeError
  | .OP, _, some (.shift _) => .error .typeError
  | .OP, _, _ => .error .keyError
  | .LUI, .U d, _ => .ok (.LUI d)
  | .AUIPC, .U d, _ => .ok (.AUIPC d)
  | .JAL, .J d, _ => .ok (.JAL d)
  | .JALR, .I d, _ => .ok (.JALR d)
  | .Branch, .B d, some (.branch t) => .ok (.Branch d t)
  | .Load, .I d, some (.load t) => .ok (.Load d t)
  | .Store, .S d, some (.load t) => .ok (.Store d t)
  | _, _, _ => .error .typeError

/-- `IMM_BITS` (asm.py:128-135) -/
def immBits : Layout → Except Err (Nat × Nat)
  | .I => .ok (0, 12)
  | .Is => .ok (0, 5)
  | .S => .ok (0, 12)
  | .U => .ok (12, 32)
  | .B => .ok (1, 13)
  | .J => .ok (1, 21)
  | .R => .error .keyError

/-- `field_bits` (asm.py:211-214) -/
def fieldBits (l : Layout) (f : Fld) (size : Nat) : Except Err (Nat × Nat) :=
  if f = .imm then immBits l else .ok (0, size)

/-- The body of the loop of `set_fields` (asm.py:202-226): the keyword argument, if any. -/
def setField (data : Data) (f : Fld) (value : Option Int) : Except Err (Option Nat) :=
  match value, data.layout.fieldSize f with
  | some _, none => .error .valueError                                     -- 205-206
  | some v, some size =>
    if v < 0 then .error .valueError                                       -- 208-209
    else match fieldBits data.layout f size with
      | .error e => .error e
      | .ok (lo, hi) =>
        if v % (2 ^ lo : Int) ≠ 0 then .error .valueError                  -- 217-218
        else if v % (2 ^ hi : Int) ≠ v then .error .valueError             -- 221-222
        else .ok (some ((v.toNat >>> lo) % 2 ^ size))                      -- 224
  | none, some _ => .ok (data.get f)                                       -- 225-226
  | none, none => .ok none

/-- The values given to `set_fields` (asm.py:183-189), and those returned by `get_fields`. -/
structure FieldVals (α : Type) where
  rs1 : Option α := none
  rs2 : Option α := none
  rd : Option α := none
  imm : Option α := none
  deriving DecidableEq

/-- `FIELDS[name]`: asm.py:197-201. -/
def FieldVals.get {α : Type} (v : FieldVals α) : Fld → Option α
  | .rs1 => v.rs1 | .rs2 => v.rs2 | .rd => v.rd | .imm => v.imm

/-- `set_fields` (asm.py:183-233) -/
def setFields (inst : Inst) (vals : FieldVals Int) : Except Err Inst := do
  let (data, tag, T) := unpack inst
  let rs1 ← setField data .rs1 vals.rs1
  let rs2 ← setField data .rs2 vals.rs2
  let rd ← setField data .rd vals.rd
  let imm ← setField data .imm vals.imm
  let data' ← mkData data.layout (fun f => FieldVals.get ⟨rs1, rs2, rd, imm⟩ f)
  construct T data' tag

/-- The loop body of `get_fields` (asm.py:240-246) -/
def getField (data : Data) (f : Fld) : Except Err (Option Nat) :=
  match data.get f with
  | none => .ok none
  | some v =>
    if f = .imm then
      match immBits data.layout with
      | .error e => .error e
      | .ok (lo, _) => .ok (some (v <<< lo))
    else .ok (some v)

/-- `get_fields` (asm.py:236-247) -/
def getFields (inst : Inst) : Except Err (FieldVals Nat) := do
  let data := (unpack inst).1
  let rs1 ← getField data .rs1
  let rs2 ← getField data .rs2
  let rd ← getField data .rd
  let imm ← getField data .imm
  pure ⟨rs1, rs2, rd, imm⟩

/-- `BitVector[w](n)` of an int (hwtypes; used at examples/riscv/asm.py:10-44): reduction modulo `2^w`. -/
def ofPy (w : Nat) (n : Int) : BitVec w := BitVec.ofInt w n

/-- `asm_X` for `X` in `ArithInst` but `SUB` (asm.py:10-44) -/
def asmArith (t : ArithInst) (rs1 rd : Int) (rs2 imm : Option Int) : Except Err Inst :=
  match imm, rs2 with
  | some _, some _ => .error .valueError
  | none, none => .error .valueError
  | some imm, none => .ok (.OP_IMM (.arith ⟨ofPy 5 rd, ofPy 5 rs1, ofPy 12 imm⟩ t))
  | none, some rs2 => .ok (.OP ⟨ofPy 5 rd, ofPy 5 rs1, ofPy 5 rs2⟩ (.arith t))

/-- `asm_X` for `X` in `ShiftInst` (asm.py:10-30, 47-56) -/
def asmShift (t : ShiftInst) (rs1 rd : Int) (rs2 imm : Option Int) : Except Err Inst :=
  match imm, rs2 with
  | some _, some _ => .error .valueError
  | none, none => .error .valueError
  | some imm, none => .ok (.OP_IMM (.shift ⟨ofPy 5 rd, ofPy 5 rs1, ofPy 5 imm⟩ t))
  | none, some rs2 => .ok (.OP ⟨ofPy 5 rd, ofPy 5 rs1, ofPy 5 rs2⟩ (.shift t))

/-- `asm_SUB` (asm.py:60-78): with an immediate, the addition of the negated 12-bit immediate. -/
def asmSub (rs1 rd : Int) (rs2 imm : Option Int) : Except Err Inst :=
  match imm, rs2 with
  | some _, some _ => .error .valueError
  | none, none => .error .valueError
  | some imm, none => .ok (.OP_IMM (.arith ⟨ofPy 5 rd, ofPy 5 rs1, -(ofPy 12 imm)⟩ .ADD))
  | none, some rs2 => .ok (.OP ⟨ofPy 5 rd, ofPy 5 rs1, ofPy 5 rs2⟩ (.arith .SUB))

end Peak.RV
