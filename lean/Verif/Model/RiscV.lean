import Verif.Model.Basic
/-!
# The RISC-V example (examples/riscv/isa.py, family.py, sim.py)

Words and register indices are Lean's `BitVec 32` and `BitVec 5`, the values of `BitVector[32]` and `BitVector[5]`
(family.py:9-16).  Instructions are values of the Python class `isa.Inst`, so every enum tag is a declared member; the raw-bit
interpretation of instructions (invalid tag codes) is not modelled here.
-/

namespace Peak.RV

/-- family.py:10-12. -/
abbrev Word := BitVec 32      -- family.py:10-12
/-- family.py:14-16. -/
abbrev Idx := BitVec 5        -- family.py:14-16

/-! ## The instruction type (isa.py) -/

/-- isa.py:21-24 -/
structure R where
  rd : Idx
  rs1 : Idx
  rs2 : Idx
  deriving DecidableEq

/-- isa.py:26-29 -/
structure I where
  rd : Idx
  rs1 : Idx
  imm : BitVec 12
  deriving DecidableEq

/-- isa.py:35-38 -/
structure Is where
  rd : Idx
  rs1 : Idx
  imm : BitVec 5
  deriving DecidableEq

/-- isa.py:40-43 -/
structure S where
  rs1 : Idx
  rs2 : Idx
  imm : BitVec 12
  deriving DecidableEq

/-- isa.py:45-47 -/
structure U where
  rd : Idx
  imm : BitVec 20
  deriving DecidableEq

/-- isa.py:49-52 -/
structure B where
  rs1 : Idx
  rs2 : Idx
  imm : BitVec 12
  deriving DecidableEq

/-- isa.py:54-56 -/
structure J where
  rd : Idx
  imm : BitVec 20
  deriving DecidableEq

/-- isa.py:60-67 -/
inductive ArithInst | ADD | SUB | SLT | SLTU | AND | OR | XOR
  deriving DecidableEq

/-- isa.py:69-72 -/
inductive ShiftInst | SLL | SRL | SRA
  deriving DecidableEq

/-- isa.py:76-78 -/
inductive AluInst
  | arith (i : ArithInst)
  | shift (i : ShiftInst)
  deriving DecidableEq

/-- isa.py:86-93; `StoreInst` (isa.py:80-84) is declared but used by no instruction. -/
inductive LoadInst | LB | LBU | LH | LHU | LW | LWU | LD
  deriving DecidableEq

/-- isa.py:95-101 -/
inductive BranchInst | BEQ | BNE | BLT | BLTU | BGE | BGEU
  deriving DecidableEq

/-- `OP_IMM` with `OP_IMM_A` and `OP_IMM_S` (isa.py:110-123) -/
inductive OpImm
  | arith (data : I) (tag : ArithInst)
  | shift (data : Is) (tag : ShiftInst)
  deriving DecidableEq

/-- `Inst` (isa.py:106-157); a store carries a `LoadInst` tag (isa.py:151-153). -/
inductive Inst
  | OP (data : R) (tag : AluInst)
  | OP_IMM (i : OpImm)
  | LUI (data : U)
  | AUIPC (data : U)
  | JAL (data : J)
  | JALR (data : I)
  | Branch (data : B) (tag : BranchInst)
  | Load (data : I) (tag : LoadInst)
  | Store (data : S) (tag : LoadInst)
  deriving DecidableEq

/-! ## hwtypes operations -/

/-- `x.sext(n)`: sign extension by `n` bits (hwtypes; used at sim.py:69-117). -/
def sext {w : Nat} (x : BitVec w) (n : Nat) : BitVec (w + n) := x.signExtend (w + n)

/-- `x.zext(n)`: zero extension by `n` bits (hwtypes; used at sim.py:77). -/
def zext {w : Nat} (x : BitVec w) (n : Nat) : BitVec (w + n) := x.setWidth (w + n)

/-- `x.bvshl(y)`, also `x << y`: the shift amount is the unsigned value of `y` (hwtypes; used at sim.py:84-117, 179). -/
def bvshl {w : Nat} (x y : BitVec w) : BitVec w := x <<< y.toNat

/-- `x.bvlshr(y)`, also `x >> y` (hwtypes; used at sim.py:181). -/
def bvlshr {w : Nat} (x y : BitVec w) : BitVec w := x >>> y.toNat

/-- `x.bvashr(y)` (hwtypes; used at sim.py:184) -/
def bvashr {w : Nat} (x y : BitVec w) : BitVec w := x.sshiftRight y.toNat

/-- `Word(bit)` (hwtypes; used at sim.py:165, 167) -/
def bitWord (b : Bool) : Word := if b then 1 else 0

/-! ## Register files (family.py) -/

/-- The interface of a register file object with state `σ` (family.py:20-40, 47-80). -/
structure RegFile (σ : Type) where
  load1 : σ → Idx → Except Err Word
  load2 : σ → Idx → Except Err Word
  store : σ → Idx → Word → σ

/-- The dictionary `self.rf` of the Python register file (family.py:23). -/
abbrev PyRF := Idx → Option Word

/-- `RegisterFile.__init__` (family.py:22-23) -/
def pyInit : PyRF := fun i => if i = 0 then some 0 else none

/-- `_load` (family.py:25-28): a register that was never stored raises KeyError.  The `isinstance` tests are typing. -/
def pyLoad (rf : PyRF) (idx : Idx) : Except Err Word :=
  match rf idx with
  | some v => .ok v
  | none => .error .keyError

/-- `store` (family.py:33-39) -/
def pyStore (rf : PyRF) (idx : Idx) (value : Word) : PyRF :=
  if idx ≠ 0 then fun i => if i = idx then some value else rf i else rf

/-- `PyFamily.get_register_file` (family.py:19-40) -/
def pyFile : RegFile PyRF := ⟨pyLoad, pyLoad, pyStore⟩

/-- The attributes of the SMT register file (family.py:49-52), under an assignment of its variables. -/
structure SmtRF where
  rs1 : Word
  rs2 : Word
  rd : Word

/-- `SMTFamily.get_register_file` (family.py:47-80): `load1`, `load2` (54-62), `store` (64-69). -/
def smtFile : RegFile SmtRF where
  load1 s idx := .ok (if idx ≠ 0 then s.rs1 else 0)
  load2 s idx := .ok (if idx ≠ 0 then s.rs2 else 0)
  store s idx value := { s with rd := if idx ≠ 0 then value else s.rd }

/-! ## The simulator (sim.py) -/

/-- The outputs of the decode stage, with their defaults (sim.py:38-49). -/
structure Dec where
  a : Word
  b : Word
  exec : AluInst
  rd : Idx := 0
  lsbMask : Word := BitVec.ofInt 32 (-1)
  isBranch : Bool := false
  isJump : Bool := false
  branchOffset : Word := 0
  cmpZero : Bool := false
  invert : Bool := false

/-- Decode (sim.py:41-150).  `asserts` is false for the SMT family, whose passes remove assertions (family.py:46). -/
def decode (load1 load2 : Idx → Except Err Word) (asserts : Bool) (pc : Word) : Inst → Except Err Dec
  | .OP data tag => do                                                    -- 51-56
    let a ← load1 data.rs1
    let b ← load2 data.rs2
    pure { a := a, b := b, exec := tag, rd := data.rd }
  | .OP_IMM (.arith data tag) => do                                       -- 58-71
    if asserts && tag == .SUB then .error .assertionError                 -- 66
    else do
      let a ← load1 data.rs1
      pure { a := a, b := sext data.imm 20, exec := .arith tag, rd := data.rd }
  | .OP_IMM (.shift data tag) => do                                       -- 73-79
    let a ← load1 data.rs1
    pure { a := a, b := zext data.imm 27, exec := .shift tag, rd := data.rd }
  | .LUI data =>                                                          -- 81-86
    pure { a := 0, b := bvshl (sext data.imm 12) 12, exec := .arith .ADD, rd := data.rd }
  | .AUIPC data =>                                                        -- 88-93
    pure { a := pc, b := bvshl (sext data.imm 12) 12, exec := .arith .ADD, rd := data.rd }
  | .JAL data =>                                                          -- 95-101
    pure { a := pc, b := bvshl (sext data.imm 12) 1, exec := .arith .ADD, rd := data.rd, isJump := true }
  | .JALR data => do                                                      -- 103-110
    let a ← load1 data.rs1
    pure { a := a, b := sext data.imm 20, exec := .arith .ADD, rd := data.rd, isJump := true, lsbMask := ~~~1 }
  | .Branch data tag => do                                                -- 112-140
    let a ← load1 data.rs1
    let b ← load2 data.rs2
    let offset := bvshl (sext data.imm 20) 1
    let isEq := tag == .BEQ
    let isNe := tag == .BNE
    let isBge := tag == .BGE
    let isSigned := isBge || tag == .BLT
    let cmpGe := isBge || tag == .BGEU
    if isEq || isNe then
      pure { a := a, b := b, exec := .arith .XOR, isBranch := true, branchOffset := offset, cmpZero := true, invert := isNe }
    else
      pure { a := a, b := b, exec := .arith (if isSigned then .SLT else .SLTU), isBranch := true, branchOffset := offset,
             invert := cmpGe }
  | .Load _ _ => pure { a := 0, b := 0, exec := .arith .ADD }             -- 142-145
  | .Store _ _ => pure { a := 0, b := 0, exec := .arith .ADD }            -- 146-150

/-- The ALU (sim.py:158-184) -/
def alu (exec : AluInst) (a b : Word) : Word :=
  match exec with
  | .arith .ADD => a + b
  | .arith .SUB => a - b
  | .arith .SLT => bitWord (a.slt b)
  | .arith .SLTU => bitWord (a.ult b)
  | .arith .AND => a &&& b
  | .arith .OR => a ||| b
  | .arith .XOR => a ^^^ b
  | .shift .SLL => bvshl a b
  | .shift .SRL => bvlshr a b
  | .shift .SRA => bvashr a b

/-- Execute and commit up to the register write (sim.py:157, 186-212): the value `out` and `pc_next`. -/
def commit (d : Dec) (pc : Word) (c0 : Word) : Word × Word :=
  let branchTarget := pc + d.branchOffset
  let c := c0 &&& d.lsbMask
  let pcNext := pc + 4
  if d.isBranch then
    let cond := if d.cmpZero then c == 0 else c.getLsbD 0
    let cond := cond ^^ d.invert
    (0, if cond then branchTarget else pcNext)
  else if d.isJump then (pcNext, c)
  else (c, pcNext)

/-- `R32I.__call__` (sim.py:31-215): the new register file and the returned `pc_next`. -/
def call {σ : Type} (F : RegFile σ) (asserts : Bool) (s : σ) (inst : Inst) (pc : Word) : Except Err (σ × Word) := do
  let d ← decode (F.load1 s) (F.load2 s) asserts pc inst
  let c := alu d.exec d.a d.b
  if asserts && (d.isJump && d.isBranch) then .error .assertionError    -- 194
  else
    let (out, pcNext) := commit d pc c
    pure (F.store s d.rd out, pcNext)

/-- The simulator object of the Python family: an exception leaves the register file as it was, the store is the last step (sim.py:31-219). -/
def pyCall (rf : PyRF) (inst : Inst) (pc : Word) : Except Err (PyRF × Word) := call pyFile true rf inst pc

/-- `R32I_mappable.__call__` (sim.py:234-247) in the SMT family: `(pc_next, rd)` under an assignment of the inputs. -/
def mappable (inst : Inst) (pc rs1 rs2 rd : Word) : Except Err (Word × Word) := do
  let (s, pcNext) ← call smtFile false ⟨rs1, rs2, rd⟩ inst pc
  pure (pcNext, s.rd)

/-- Running a program: instruction fetch is not part of the simulator, the caller supplies `prog pc` (the calls of sim.py:31-219). -/
def pyRun (prog : Word → Inst) : Nat → PyRF → Word → Except Err (PyRF × Word)
  | 0, rf, pc => .ok (rf, pc)
  | n + 1, rf, pc => do
    let (rf', pc') ← pyCall rf (prog pc) pc
    pyRun prog n rf' pc'

end Peak.RV
