import Verif.Model.Bitfield
/-!
# The ARM example (examples/arm)

Python ints given to the builders are `Int`; `BitVector[n](i)` keeps the low `n` bits of `i`.
-/

namespace Peak.Arm

/-- examples/arm/isa.py:9. -/
abbrev Word := BitVec 32

/-- The options of `Data` (examples/arm/isa.py:38-88). -/
inductive DataOp
  | AND | EOR | SUB | RSB | ADD | ADC | SBC | RSC | TST | TEQ | CMP | CMN | ORR | MOV | BIC | MVN
  deriving DecidableEq

/-- `Cond` (isa.py:114-132); `UGE` and `ULT` are other names of `C` and `C_n`. -/
inductive Cond
  | Z | Z_n | C | C_n | N | N_n | V | V_n | UGT | ULE | SGE | SLT | SGT | SLE | Always
  deriving DecidableEq

/-- `Operand` (isa.py:11-26). -/
inductive Operand
  | reg (rc : BitVec 4) (shift : BitVec 8)
  | imm (imm : BitVec 8) (rotate : BitVec 4)
  deriving DecidableEq

/-- `BaseInst` (isa.py:28-112, 134-135): `Data`, `LDST` (`load` tells `LDR` from `STR`), `B`. -/
inductive Base
  | data (op : DataOp) (ra rb : BitVec 4) (rc : Operand) (s : BitVec 1)
  | ldst (load : Bool) (ra rb : BitVec 4) (rc : Operand)
  | b (offset : BitVec 24) (l i : BitVec 1)
  deriving DecidableEq

/-- `Inst` (isa.py:137-139). -/
structure Inst where
  inst : Base
  cond : Cond
  deriving DecidableEq

/-! ## examples/arm/asm.py -/

/-- `w.bits()`, the lowest bit first (hwtypes, not part of /repo) (used at examples/arm/asm.py:24-27). -/
def bits (w : Word) : List Bool := (List.range 32).map w.getLsbD

/-- `Word(list)` (hwtypes) (used at examples/arm/asm.py:24-27). -/
def ofBits (l : List Bool) : Word := (BitVec.ofBoolListLE l).setWidth 32

/-- `rol` (asm.py:24-26) -/
def rol (w : Word) (n : Nat) : Word := ofBits ((bits w).drop n ++ (bits w).take n)

/-- `_imm` (asm.py:23-32); `Rotate.size` is 4. -/
def imm (val : Int) : Except Err (BitVec 4 × Nat) :=
  let w := BitVec.ofInt 32 val
  match (List.range 16).find? (fun i => (rol w (2 * i)).ult 256) with
  | some i => .ok ((rol w (2 * i)).setWidth 4, i)
  | none => .error .valueError

/-- `data` (asm.py:34-43).  `rotate, imm = _imm(imm)` (39). -/
def data (op : DataOp) (ra rb : Int) (rc : Option Int) (shift im s : Int) (cond : Cond) : Except Err Inst :=
  match rc with
  | none =>
    match imm im with
    | .error e => .error e
    | .ok (rotate, i) => .ok ⟨.data op (.ofInt 4 ra) (.ofInt 4 rb) (.imm (.ofNat 8 i) rotate) (.ofInt 1 s), cond⟩
  | some c => .ok ⟨.data op (.ofInt 4 ra) (.ofInt 4 rb) (.reg (.ofInt 4 c) (.ofInt 8 shift)) (.ofInt 1 s), cond⟩

/-- `mov`, `add`, `and_`, `or_`, `eor` (asm.py:45-58) -/
def mov := data .MOV
/-- examples/arm/asm.py:48-49. -/
def add := data .ADD
/-- examples/arm/asm.py:51-52. -/
def and_ := data .AND
/-- examples/arm/asm.py:54-55. -/
def or_ := data .ORR
/-- examples/arm/asm.py:57-58. -/
def eor := data .EOR

/-- `b` (asm.py:61-64) -/
def b (offset link : Int) (cond : Cond) : Inst := ⟨.b (.ofInt 24 offset) (.ofInt 1 link) 1, cond⟩

/-- `ldst` (asm.py:67-75).  `imm, rotate = _imm(imm)` (71). -/
def ldst (load : Bool) (ra rb : Int) (rc : Option Int) (shift im : Int) (cond : Cond) : Except Err Inst :=
  match rc with
  | none =>
    match imm im with
    | .error e => .error e
    | .ok (i, rotate) => .ok ⟨.ldst load (.ofInt 4 ra) (.ofInt 4 rb) (.imm (i.setWidth 8) (.ofNat 4 rotate)), cond⟩
  | some c => .ok ⟨.ldst load (.ofInt 4 ra) (.ofInt 4 rb) (.reg (.ofInt 4 c) (.ofInt 8 shift)), cond⟩

/-- `ldr`, `str` (asm.py:77-81) -/
def ldr := ldst true
/-- examples/arm/asm.py:80-81. -/
def str := ldst false

/-! ## the words -/

/-- The classes of examples/arm/isa.py: 1 `Imm`, 2 `Rotate`, 3 `RegC`, 4 `Shift`, 5 `Operand`, 6 `RegA`, 7 `RegB`, 8 `S`, 9 `Data`, 10 `LDST`, 11 `Offset`, 12 `L`, 13 `BI`, 14 `Cond`, 15 `BaseInst`;
the products have no shift. -/
def bf : BfEnv where
  off c := if c = 2 then 8 else if c = 4 then 4 else if c = 5 then 25 else if c = 6 then 16 else if c = 7 then 12 else if c = 8 then 20 else if c = 9 then 21
    else if c = 10 then 20 else if c = 12 then 24 else if c = 13 then 25 else if c = 14 then 28 else if c = 15 then 26 else 0
  tags _ := none

/-- The types (isa.py:9-139).  The order in which Python iterates over the options of a `Sum` is left open: `operands`, `datas`, `ldsts`, `bases` list them in any order. -/
structure Orders where
  operands : Fields
  datas : Fields
  ldsts : Fields
  bases : Fields

/-- examples/arm/isa.py:21-23, as a type of `Model/Types.lean`. -/
def regOperandT : Ty := .prod 20 (.cons 0 (.bv 3 4) (.cons 1 (.bv 4 8) .nil))
/-- examples/arm/isa.py:14-16, as a type of `Model/Types.lean`. -/
def immOperandT : Ty := .prod 21 (.cons 0 (.bv 1 8) (.cons 1 (.bv 2 4) .nil))

/-- examples/arm/isa.py:25-26, the options in the order `o`. -/
def operandT (o : Orders) : Ty := .sum 5 o.operands

/-- A subclass of `_Data` (isa.py:32-36). -/
def dataT (o : Orders) (c : Nat) : Ty := .prod c (.cons 0 (.bv 6 4) (.cons 1 (.bv 7 4) (.cons 2 (operandT o) (.cons 3 (.bv 8 1) .nil))))

/-- A subclass of `_LDST` (isa.py:90-93). -/
def ldstT (o : Orders) (c : Nat) : Ty := .prod c (.cons 0 (.bv 6 4) (.cons 1 (.bv 7 4) (.cons 2 (operandT o) .nil)))

/-- `B` (isa.py:105-112) -/
def bT : Ty := .prod 50 (.cons 0 (.bv 11 24) (.cons 1 (.bv 12 1) (.cons 2 (.bv 13 1) .nil)))

/-- examples/arm/isa.py:114-132, as a type of `Model/Types.lean`. -/
def condT : Ty := .enum 14 ((List.range 15).map (fun i : Nat => .lit i))

/-- `Inst` (isa.py:137-139) -/
def instT (o : Orders) : Ty := .prod 51 (.cons 0 (.sum 15 o.bases) (.cons 1 condT .nil))

/-- The options, in the order they are written (examples/arm/isa.py:26). -/
def operandOpts : List (Key × Ty) := [(0, regOperandT), (1, immOperandT)]
/-- The options in the order they are written (examples/arm/isa.py:86-88). -/
def dataOpts (o : Orders) : List (Key × Ty) := (List.range 16).map (fun i => (i, dataT o (30 + i)))
/-- The options in the order they are written (examples/arm/isa.py:102). -/
def ldstOpts (o : Orders) : List (Key × Ty) := [(0, ldstT o 46), (1, ldstT o 47)]
/-- The options in the order they are written (examples/arm/isa.py:135). -/
def baseOpts (o : Orders) : List (Key × Ty) := [(0, .sum 9 o.datas), (1, .sum 10 o.ldsts), (2, bT)]

/-- The position of the operation in `Data` (isa.py:86-88). -/
def DataOp.key : DataOp → Key
  | .AND => 0 | .EOR => 1 | .SUB => 2 | .RSB => 3 | .ADD => 4 | .ADC => 5 | .SBC => 6 | .RSC => 7
  | .TST => 8 | .TEQ => 9 | .CMP => 10 | .CMN => 11 | .ORR => 12 | .MOV => 13 | .BIC => 14 | .MVN => 15

/-- The values of `Cond` (isa.py:115-132). -/
def Cond.code : Cond → Nat
  | .Z => 0 | .Z_n => 1 | .C => 2 | .C_n => 3 | .N => 4 | .N_n => 5 | .V => 6 | .V_n => 7
  | .UGT => 8 | .ULE => 9 | .SGE => 10 | .SLT => 11 | .SGT => 12 | .SLE => 13 | .Always => 14

/-- A bit vector as a value of `Model/Types.lean` (hwtypes, not in /repo; the fields of examples/arm/isa.py:9-36). -/
def bvV {w : Nat} (x : BitVec w) : Val := .bits (BV.ofNat w x.toNat)

/-- An operand as a value (examples/arm/isa.py:14-26). -/
def Operand.val : Operand → Val
  | .reg rc shift => .sum 0 (.prod [bvV rc, bvV shift])
  | .imm i rotate => .sum 1 (.prod [bvV i, bvV rotate])

/-- A base instruction as a value (examples/arm/isa.py:32-135). -/
def Base.val : Base → Val
  | .data op ra rb rc s => .sum 0 (.sum op.key (.prod [bvV ra, bvV rb, rc.val, bvV s]))
  | .ldst load ra rb rc => .sum 1 (.sum load.toNat (.prod [bvV ra, bvV rb, rc.val]))
  | .b offset l i => .sum 2 (.prod [bvV offset, bvV l, bvV i])

/-- An instruction as a value (examples/arm/isa.py:137-139). -/
def Inst.val (i : Inst) : Val := .prod [i.inst.val, .enum (.lit i.cond.code)]

/-- `encode(inst)` (peak/bitfield.py:59-93; tests/test_arm.py). -/
def encode (o : Orders) (i : Inst) : Except Err Nat := bfEncode bf false (instT o) i.val

end Peak.Arm
