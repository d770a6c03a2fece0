import Verif.Model.Register
/-!
# The PE example (examples/pe1/isa.py, cond.py, lut.py, mode.py, sim.py)

The 16-bit data are Lean's `BitVec 16` (isa.py:10-11).  A value returned as the 1-bit result is a `PV`, because one branch of `cond`
passes the 16-bit ALU result on.
-/

namespace Peak.PE1

/-- isa.py:10-11. -/
abbrev Data := BitVec 16

/-- `Cond` (cond.py:7-27); members with equal values are one member, so that `EQ` is `Z`, `NE` is `Z_n`, `UGE` is `C` and `ULT` is `C_n`. -/
inductive Cond | Z | Z_n | C | C_n | N | N_n | V | V_n | UGT | ULE | SGE | SLT | SGT | SLE | LUT | ALU
  deriving DecidableEq

/-- cond.py:16. -/
abbrev Cond.EQ : Cond := .Z
/-- cond.py:17. -/
abbrev Cond.NE : Cond := .Z_n
/-- cond.py:18. -/
abbrev Cond.UGE : Cond := .C
/-- cond.py:19. -/
abbrev Cond.ULT : Cond := .C_n

/-- `Mode` (mode.py:8-12) -/
inductive Mode | CONST | VALID | BYPASS | DELAY
  deriving DecidableEq

/-- `ALU` (isa.py:28-42) -/
inductive Op | Add | Sub | Abs | GTE_Max | LTE_Min | Sel | Mult0 | Mult1 | Mult2 | SHR | SHL | Or | And | XOr
  deriving DecidableEq

/-- `Signed` (isa.py:45-47) -/
inductive Sgn | unsigned | signed
  deriving DecidableEq

/-- A Python value that is a `Bit` or a `Data` (the results of cond.py:35-68). -/
inductive PV
  | bit (b : Bool)
  | data (d : Data)
  deriving DecidableEq

/-- `cond` (cond.py:35-68) -/
def cond (code : Cond) (alu lut : PV) (Z N C V : Bool) : PV :=
  match code with
  | .Z => .bit Z
  | .Z_n => .bit (!Z)
  | .C => .bit C
  | .C_n => .bit (!C)
  | .N => .bit N
  | .N_n => .bit (!N)
  | .V => .bit V
  | .V_n => .bit (!V)
  | .UGT => .bit (C && !Z)
  | .ULE => .bit (!C || Z)
  | .SGE => .bit (N == V)
  | .SLT => .bit (N != V)
  | .SGT => .bit (!Z && (N == V))
  | .SLE => .bit (Z || (N != V))
  | .ALU => alu
  | .LUT => lut

/-- `lut` (lut.py:8-11): the index is built from the bits, lowest first, and zero extended to eight bits. -/
def lut (table : BitVec 8) (bit0 bit1 bit2 : Bool) : Bool :=
  let i : BitVec 3 := BitVec.ofNat 3 (bit0.toNat + 2 * bit1.toNat + 4 * bit2.toNat)
  let i : BitVec 8 := i.setWidth 8
  ((table >>> i.toNat) &&& 1).getLsbD 0

/-- hwtypes `a.adc(b, c)`: the sum and the carry of the addition one bit wider (not in /repo; used at sim.py:43, 48). -/
def adc (a b : Data) (c : Bool) : Data × Bool :=
  let r : BitVec 17 := a.setWidth 17 + b.setWidth 17 + (BitVec.ofBool c).setWidth 17
  (r.extractLsb' 0 16, r.getLsbD 16)

/-- hwtypes `overflow(a, b, res)` (not in /repo; used at sim.py:44, 49) -/
def overflow (a b r : Data) : Bool := (a.msb && b.msb && !r.msb) || (!a.msb && !b.msb && r.msb)

/-- The value of `a >= b`, `a <= b` for `SIntVector` or `BitVector` operands (hwtypes; used at sim.py:62-69). -/
def geData (signed : Bool) (a b : Data) : Bool := if signed then b.sle a else b.ule a

/-- The results of `alu` (sim.py:94). -/
structure AluRes where
  res : Data
  resP : Bool
  Z : Bool
  N : Bool
  C : Bool
  V : Bool
  deriving DecidableEq

/-- `alu` (sim.py:29-94).  `signed` is the outcome of the test `if signed:` (31), which turns the operands into `SIntVector`s, for which
`>=`, `<=` and `>>` are signed.  The branch `ALU.Neg` (83) names no member of `ALU` and is not reached by any. -/
def alu (op : Op) (signed : Bool) (a b : Data) (d : Bool) : AluRes :=
  let mula : BitVec 32 := if signed then a.signExtend 32 else a.setWidth 32
  let mulb : BitVec 32 := if signed then b.signExtend 32 else b.setWidth 32
  let mul := mula * mulb
  let fin (res : Data) (resP C V : Bool) : AluRes := ⟨res, resP, res == 0, res.getLsbD 15, C, V⟩      -- 91-94
  match op with
  | .Add => let (res, C) := adc a b false; fin res C C (overflow a b res)
  | .Sub => let (res, C) := adc a (~~~b) true; fin res C C (overflow a (~~~b) res)
  | .Mult0 => fin (mul.extractLsb' 0 16) false false false
  | .Mult1 => fin (mul.extractLsb' 8 16) false false false
  | .Mult2 => fin (mul.extractLsb' 16 16) false false false
  | .GTE_Max => fin (if geData signed a b then a else b) (geData signed a b) false false
  | .LTE_Min => fin (if geData signed b a then a else b) (geData signed a b) false false
  | .Abs => fin (if geData signed a 0 then a else -a) (a.getLsbD 15) false false
  | .Sel => fin (if d then a else b) false false false
  | .And => fin (a &&& b) false false false
  | .Or => fin (a ||| b) false false false
  | .XOr => fin (a ^^^ b) false false false
  | .SHR =>
    let n := (b.extractLsb' 0 4).toNat
    fin (if signed then a.sshiftRight n else a >>> n) false false false
  | .SHL => fin (a <<< (b.extractLsb' 0 4).toNat) false false false

/-- `RegisterMode.__call__` (mode.py:25-37) with the stored value of its register: the result and the new stored value. -/
def modeCall {α : Type} (stored : α) (mode : Mode) (const value : α) (clkEn : Bool) : Except Err α × α :=
  match mode with
  | .CONST => (.ok const, (regCall stored (some value) false).2)
  | .BYPASS => (.ok value, (regCall stored (some value) false).2)
  | .DELAY => regCall stored (some value) true
  | .VALID => regCall stored (some value) clkEn

/-- One call of a mode register (mode.py:25). -/
structure ModeArgs (α : Type) where
  mode : Mode
  const : α
  value : α
  clkEn : Bool

/-- A sequence of calls: the results and the final content (mode.py:25-37). -/
def modeRun {α : Type} : List (ModeArgs α) → α → List (Except Err α) × α
  | [], s => ([], s)
  | c :: cs, s =>
    let (r, s') := modeCall s c.mode c.const c.value c.clkEn
    let (rs, s'') := modeRun cs s'
    (r :: rs, s'')

/-- `Inst` (isa.py:52-66) -/
structure Inst where
  alu : Op
  signed : Sgn
  lut : BitVec 8
  cond : Cond
  rega : Mode
  data0 : Data
  regb : Mode
  data1 : Data
  regd : Mode
  bit0 : Bool
  rege : Mode
  bit1 : Bool
  regf : Mode
  bit2 : Bool

/-- The contents of the registers of a `PE` (sim.py:98-110). -/
structure PESt where
  rega : Data := 0
  regb : Data := 0
  regd : Bool := false
  rege : Bool := false
  regf : Bool := false

/-- The inputs of a cycle (sim.py:112-115). -/
structure PEIn where
  data0 : Data
  data1 : Data := 0
  bit0 : Bool := false
  bit1 : Bool := false
  bit2 : Bool := false
  clkEn : Bool := true

/-- `PE.__call__` (sim.py:112-139).  `truth` is Python's truth value of a member of `Signed`. -/
def peCall (truth : Sgn → Bool) (s : PESt) (inst : Inst) (i : PEIn) : Except Err (Data × PV × Bool) × PESt :=
  let (ra, sa) := modeCall s.rega inst.rega inst.data0 i.data0 i.clkEn
  let (rb, sb) := modeCall s.regb inst.regb inst.data1 i.data1 i.clkEn
  let (rd, sd) := modeCall s.regd inst.regd inst.bit0 i.bit0 i.clkEn
  let (re, se) := modeCall s.rege inst.rege inst.bit1 i.bit1 i.clkEn
  let (rf, sf) := modeCall s.regf inst.regf inst.bit2 i.bit2 i.clkEn
  let out : Except Err (Data × PV × Bool) := do
    let ra ← ra
    let rb ← rb
    let rd ← rd
    let re ← re
    let rf ← rf
    let r := alu inst.alu (truth inst.signed) ra rb rd
    let lutRes := lut inst.lut rd re rf
    let resP := cond inst.cond (.data r.res) (.bit lutRes) r.Z r.N r.C r.V
    pure (r.res, resP, false)
  (out, ⟨sa, sb, sd, se, sf⟩)

end Peak.PE1
