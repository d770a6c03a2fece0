import Verif.Model.Pico
/-!
# What Pico's instructions mean, in integers

From the table and the comments in examples/pico/isa.py: 16 registers, a call stores the return address in register 15, flags Z (zero), N (negative),
C (carry; after a subtraction, unsigned greater or equal), V (signed overflow).
-/

namespace Peak.Pico

/-- The state a program sees. -/
structure Arch where
  reg : Reg → Word
  pc : Word
  Z : Bool
  N : Bool
  C : Bool
  V : Bool
  out : List Word

def Arch.set (a : Arch) (r : Reg) (w : Word) : Arch := { a with reg := fun r' => if r' = r then w else a.reg r' }

/-- The exact unsigned and signed results of an arithmetic instruction; `sbc` subtracts the carry (tests/test_pico.py: with the
carry clear it is a subtraction). -/
def exact (op : ArithOp) (x y : Int) (c : Bool) : Int :=
  match op with
  | .Add => x + y
  | .Sub => x - y
  | .Adc => x + y + (if c then 1 else 0)
  | .Sbc => x - y - (if c then 1 else 0)

/-- The carry: an addition does not fit, a subtraction does not borrow. -/
def carrySpec (op : ArithOp) (a b : Word) (c : Bool) : Bool :=
  match op with
  | .Add | .Adc => decide (2 ^ 16 ≤ exact op a.toNat b.toNat c)
  | .Sub | .Sbc => decide (0 ≤ exact op a.toNat b.toNat c)

/-- The signed result does not fit. -/
def overflowSpec (op : ArithOp) (a b : Word) (c : Bool) : Bool :=
  decide (¬ (-2 ^ 15 ≤ exact op a.toInt b.toInt c ∧ exact op a.toInt b.toInt c < 2 ^ 15))

/-- When a condition holds. -/
def holds (a : Arch) : Cond → Prop
  | .Z => a.Z
  | .Z_n => ¬ a.Z
  | .C => a.C
  | .C_n => ¬ a.C
  | .N => a.N
  | .N_n => ¬ a.N
  | .V => a.V
  | .V_n => ¬ a.V
  | .UGT => a.C ∧ ¬ a.Z
  | .ULE => ¬ a.C ∨ a.Z
  | .SGE => a.N = a.V
  | .SLT => a.N ≠ a.V
  | .SGT => ¬ a.Z ∧ a.N = a.V
  | .SLE => a.Z ∨ a.N ≠ a.V
  | .Never => False
  | .Always => True

instance (a : Arch) (c : Cond) : Decidable (holds a c) := by cases c <;> simp only [holds] <;> infer_instance

def Arch.next (a : Arch) : Arch := { a with pc := a.pc + 1 }

/-- What an instruction does; `none` for `LD` and data words, which have no meaning. -/
def exec (i : Inst) (a : Arch) : Option Arch :=
  match i with
  | .logic op ra rb =>
    let r := match op with
      | .Mov => a.reg rb
      | .And => a.reg ra &&& a.reg rb
      | .Or => a.reg ra ||| a.reg rb
      | .XOr => a.reg ra ^^^ a.reg rb
    some { (a.set ra r).next with Z := decide (r = 0), N := decide (r.toInt < 0) }
  | .arith op ra rb =>
    let r := BitVec.ofInt 16 (exact op (a.reg ra).toNat (a.reg rb).toNat a.C)
    some { (a.set ra r).next with
      Z := decide (r = 0), N := decide (r.toInt < 0), C := carrySpec op (a.reg ra) (a.reg rb) a.C, V := overflowSpec op (a.reg ra) (a.reg rb) a.C }
  | .memory .LDLO ra imm => some (a.set ra (BitVec.ofNat 16 imm.toNat)).next
  | .memory .LDHI ra imm => some (a.set ra (BitVec.ofNat 16 (256 * imm.toNat))).next
  | .memory .ST ra imm => some (if imm = 0 then { a.next with out := a.reg ra :: a.out } else a.next)
  | .memory .LD _ _ => none
  | .control op imm c =>
    some (if holds a c then
      match op with
      | .Jump => { a with pc := BitVec.ofNat 16 imm.toNat }
      | .Call => { a.set 15 (a.pc + 1) with pc := BitVec.ofNat 16 imm.toNat }
      | .Return => { a with pc := a.reg 15 }
    else a.next)
  | .word _ => none

/-- `n` instructions of a program; `none` when control leaves the program or reaches an instruction without meaning. -/
def execN (prog : List Inst) : Nat → Arch → Option Arch
  | 0, a => some a
  | n + 1, a =>
    match prog[a.pc.toNat]? with
    | none => none
    | some i =>
      match exec i a with
      | none => none
      | some a => execN prog n a

/-- The state of the simulator as a program sees it. -/
def St.arch (s : St) : Arch :=
  ⟨fun r => s.regs[r.toNat]?.getD 0, s.pc, s.Z, s.N, s.C, s.V, s.out⟩

/-- The simulator holds the program, and 16 registers. -/
def Holds (prog : List Inst) (s : St) : Prop :=
  s.mem = memInit 256 (prog.map .inst) (.word 0) ∧ s.regs.length = 16

/-- The 32-bit number in two registers. -/
def pair (hi lo : Word) : Nat := hi.toNat * 2 ^ 16 + lo.toNat

/-- What a condition says about the operands of a subtraction before it. -/
def compares (c : Cond) (a b : Word) : Prop :=
  match c with
  | .Z => a = b
  | .Z_n => a ≠ b
  | .C => b.toNat ≤ a.toNat
  | .C_n => a.toNat < b.toNat
  | .UGT => b.toNat < a.toNat
  | .ULE => a.toNat ≤ b.toNat
  | .SGE => b.toInt ≤ a.toInt
  | .SLT => a.toInt < b.toInt
  | .SGT => b.toInt < a.toInt
  | .SLE => a.toInt ≤ b.toInt
  | _ => False

/-- The conditions of equality and unsigned comparison. -/
def Unsigned (c : Cond) : Prop := c ∈ [Cond.Z, .Z_n, .UGE, .ULT, .UGT, .ULE]

/-- An instruction whose overflow flag the simulator computes as specified. -/
def FlagsOk : Inst → Prop
  | .arith .Sub _ _ => False
  | .arith .Sbc _ _ => False
  | _ => True

/-- The conditions that read the overflow flag. -/
def ReadsV : Cond → Prop
  | .V | .V_n | .SGE | .SLT | .SGT | .SLE => True
  | _ => False

end Peak.Pico
