import Verif.Model.Register
/-!
# The Pico example (examples/pico/isa.py, sim.py, asm.py)

The 16-bit words are Lean's `BitVec 16` (isa.py:29).  A step that raises changes nothing before it does, so that a step is a function to
`Except Err St`.
-/

namespace Peak.Pico

/-- isa.py:29. -/
abbrev Word := BitVec 16
/-- isa.py:31-33. -/
abbrev Reg := BitVec 4
/-- isa.py:34. -/
abbrev Imm := BitVec 8

/-- `Cond` (isa.py:36-55); members with equal values are equal, so that `UGE` is `C` and `ULT` is `C_n`. -/
inductive Cond | Z | Z_n | C | C_n | N | N_n | V | V_n | UGT | ULE | SGE | SLT | SGT | SLE | Never | Always
  deriving DecidableEq

/-- isa.py:46. -/
abbrev Cond.UGE : Cond := .C
/-- isa.py:47. -/
abbrev Cond.ULT : Cond := .C_n

/-- The options of `Logic`, `Arith`, `Memory`, `Control` (isa.py:57-127). -/
inductive LogicOp | Mov | And | Or | XOr
  deriving DecidableEq
/-- isa.py:77-90. -/
inductive ArithOp | Add | Sub | Adc | Sbc
  deriving DecidableEq
/-- isa.py:97-110. -/
inductive MemOp | LDLO | LDHI | LD | ST
  deriving DecidableEq
/-- isa.py:117-127. -/
inductive CtrlOp | Jump | Call | Return
  deriving DecidableEq

/-- `Inst` (isa.py:130-131) -/
inductive Inst
  | logic (op : LogicOp) (ra rb : Reg)
  | arith (op : ArithOp) (ra rb : Reg)
  | memory (op : MemOp) (ra : Reg) (imm : Imm)
  | control (op : CtrlOp) (imm : Imm) (cond : Cond)
  | word (w : Word)
  deriving DecidableEq

/-- A cell of the ROM: an instruction, or the `Word(0)` that fills it up (sim.py:71). -/
inductive Cell
  | inst (i : Inst)
  | word (w : Word)
  deriving DecidableEq

/-- The attributes of a `Pico` (sim.py:69-78), and the words printed by `st`, last one first. -/
structure St where
  mem : List Cell
  regs : List Word
  pc : Word
  Z : Bool
  N : Bool
  C : Bool
  V : Bool
  out : List Word
  deriving DecidableEq

/-- `Pico.__init__` (sim.py:69-78) -/
def init (prog : List Inst) : St :=
  { mem := memInit 256 (prog.map .inst) (.word 0), regs := memInit 16 ((List.range 16).map (fun _ => 0)) 0, pc := 0
    Z := false, N := false, C := false, V := false, out := [] }

/-- hwtypes `a.adc(b, c)`: the sum and the carry of the addition one bit wider (not in /repo; used at sim.py:11-17). -/
def adc (a b : Word) (c : Bool) : Word × Bool :=
  let r : BitVec 17 := a.setWidth 17 + b.setWidth 17 + (BitVec.ofBool c).setWidth 17
  (r.extractLsb' 0 16, r.getLsbD 16)

/-- hwtypes `overflow(a, b, res)` (not in /repo; used at sim.py:108) -/
def overflow (a b r : Word) : Bool := (a.msb && b.msb && !r.msb) || (!a.msb && !b.msb && r.msb)

/-- `arith` (sim.py:9-19) -/
def arith (op : ArithOp) (a b : Word) (c : Bool) : Word × Bool :=
  match op with
  | .Add => adc a b false
  | .Sub => adc a (~~~b) true
  | .Adc => adc a b c
  | .Sbc => adc a (~~~b) (!c)

/-- `logic` (sim.py:21-31) -/
def logic (op : LogicOp) (a b : Word) : Word :=
  match op with
  | .Mov => b
  | .And => a &&& b
  | .Or => a ||| b
  | .XOr => a ^^^ b

/-- `cond` (sim.py:33-65) -/
def cond (code : Cond) (Z N C V : Bool) : Bool :=
  match code with
  | .Z => Z
  | .Z_n => !Z
  | .C => C
  | .C_n => !C
  | .N => N
  | .N_n => !N
  | .V => V
  | .V_n => !V
  | .UGT => C && !Z
  | .ULE => !C || Z
  | .SGE => N == V
  | .SLT => N != V
  | .SGT => !Z && (N == V)
  | .SLE => Z || (N != V)
  | .Never => false
  | .Always => true

/-- `self.reg(r, 0, 0)` (sim.py:97-98, 120, 141, 178): the word, and the state after the call. -/
def St.readCall (s : St) (r : Reg) : Except Err Word × St :=
  let (w, m) := ramCall s.regs r.toNat (some 0) false
  (w, { s with regs := m })
/-- The word `self.reg(r, 0, 0)` returns (sim.py:97-98, 120, 141, 178).  The callers below go on with the state they have, as the call leaves it as it is (`C56_read`). -/
def St.read (s : St) (r : Reg) : Except Err Word := (s.readCall r).1

/-- `self.reg(r, w, 1)` (examples/pico/sim.py:103, 115) -/
def St.write (s : St) (r : Reg) (w : Word) : Except Err St :=
  match ramCall s.regs r.toNat (some w) true with
  | (.error e, _) => .error e
  | (.ok _, m) => .ok { s with regs := m }

/-- `Pico.alu` (sim.py:94-109) for `Logic`. -/
def St.aluLogic (s : St) (op : LogicOp) (ra rb : Reg) : Except Err St := do
  let a ← s.read ra
  let b ← s.read rb
  let res := logic op a b
  let s ← s.write ra res
  .ok { s with Z := res == 0, N := res.getLsbD 15, pc := s.pc + 1 }

/-- `Pico.alu` (sim.py:94-109) for `Arith`. -/
def St.aluArith (s : St) (op : ArithOp) (ra rb : Reg) : Except Err St := do
  let a ← s.read ra
  let b ← s.read rb
  let (res, p) := arith op a b s.C
  let s ← s.write ra res
  .ok { s with Z := res == 0, N := res.getLsbD 15, C := p, V := overflow a b res, pc := s.pc + 1 }

/-- `Pico.memory` (sim.py:111-123).  `raise NotImplemented(inst)` raises a TypeError: `NotImplemented` cannot be called. -/
def St.memory (s : St) (op : MemOp) (ra : Reg) (imm : Imm) : Except Err St :=
  match op with
  | .LDLO => do
    let s ← s.write ra (imm.setWidth 16)
    .ok { s with pc := s.pc + 1 }
  | .LDHI => do
    let s ← s.write ra (BitVec.ofNat 16 (imm.toNat <<< 8))
    .ok { s with pc := s.pc + 1 }
  | .ST =>
    if imm = 0 then do
      let w ← s.read ra
      .ok { s with out := w :: s.out, pc := s.pc + 1 }
    else .ok { s with pc := s.pc + 1 }
  | .LD => .error .typeError

/-- `Pico.control` (sim.py:125-146); `LR` is register 15 (sim.py:5).  Each branch tests the same condition. -/
def St.control (s : St) (op : CtrlOp) (imm : Imm) (c : Cond) : Except Err St :=
  if cond c s.Z s.N s.C s.V then
    match op with
    | .Jump => .ok { s with pc := imm.setWidth 16 }
    | .Call => do
      let s ← s.write 15 (s.pc + 1)
      .ok { s with pc := imm.setWidth 16 }
    | .Return => do
      let w ← s.read 15
      .ok { s with pc := w }
  else .ok { s with pc := s.pc + 1 }

/-- `Pico.__call__` (sim.py:80-92).  A `Word` has no attribute `_value_`. -/
def St.step (s : St) : Except Err St :=
  match (romCall (.word 0) s.mem s.pc.toNat).1 with
  | .error e => .error e
  | .ok (.word _) => .error .attributeError
  | .ok (.inst i) =>
    match i with
    | .logic op ra rb => s.aluLogic op ra rb
    | .arith op ra rb => s.aluArith op ra rb
    | .memory op ra imm => s.memory op ra imm
    | .control op imm c => s.control op imm c
    | .word _ => .error .typeError

/-- `n` calls (sim.py:80-92). -/
def St.steps : Nat → St → Except Err St
  | 0, s => .ok s
  | n + 1, s => do
    let s ← s.step
    St.steps n s

/-- `peak_flag` (sim.py:149-158) -/
inductive Flag | Z | N | C | V
/-- sim.py:149-158; the carry is returned for `V` (157). -/
def St.peakFlag (s : St) : Flag → Bool
  | .Z => s.Z
  | .N => s.N
  | .C => s.C
  | .V => s.C

/-- `poke_flag`, `poke_pc` (sim.py:160-175): registers are called with one argument of two. -/
def St.pokeFlag (_ : St) (_ : Flag) (_ : Bool) : Except Err St := .error .typeError
/-- sim.py:174-175: the register is called with one argument. -/
def St.pokePc (_ : St) (_ : Word) : Except Err St := .error .typeError

/-- `peak_reg`, `poke_reg` (sim.py:177-181) -/
def St.peakReg (s : St) (r : Reg) : Except Err Nat := (s.read r).map BitVec.toNat
/-- sim.py:180-181. -/
def St.pokeReg (s : St) (r : Reg) (w : Word) : Except Err St := s.write r w

/-- `peak_mem`, `poke_mem` (sim.py:183-187): an instruction is no `int`; a ROM has no `wen`. -/
def St.peakMem (s : St) (a : Word) : Except Err Nat :=
  match (romCall (.word 0) s.mem a.toNat).1 with
  | .error e => .error e
  | .ok (.word w) => .ok w.toNat
  | .ok (.inst _) => .error .typeError
/-- sim.py:186-187: the ROM is called with an address only (peak/memory.py:12). -/
def St.pokeMem (_ : St) (_ : Word) (_ : Word) : Except Err St := .error .typeError

/-! asm.py -/

/-- asm.py:3-25 -/
def asmLogic (op : LogicOp) (ra rb : Nat) : Inst := .logic op (BitVec.ofNat 4 ra) (BitVec.ofNat 4 rb)
/-- asm.py:15-25. -/
def asmArith (op : ArithOp) (ra rb : Nat) : Inst := .arith op (BitVec.ofNat 4 ra) (BitVec.ofNat 4 rb)
/-- asm.py:28-36 -/
def asmMemory (op : MemOp) (ra imm : Nat) : Inst := .memory op (BitVec.ofNat 4 ra) (BitVec.ofNat 8 imm)
/-- asm.py:39-47 -/
def asmControl (op : CtrlOp) (imm : Nat) (c : Cond) : Inst := .control op (BitVec.ofNat 8 imm) c
/-- asm.py:46-47. -/
def asmRet (c : Cond) : Inst := .control .Return (BitVec.ofNat 8 0) c

end Peak.Pico
