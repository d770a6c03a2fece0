import Verif.Model.PE1
/-!
# What the PE's operations mean, in integers
-/

namespace Peak.PE1

/-- The comparison a condition code stands for. -/
def compares : Cond → Option (Data → Data → Bool)
  | .EQ => some (fun a b => decide (a = b))
  | .NE => some (fun a b => decide (a ≠ b))
  | .UGE => some (fun a b => decide (b.toNat ≤ a.toNat))
  | .ULT => some (fun a b => decide (a.toNat < b.toNat))
  | .UGT => some (fun a b => decide (b.toNat < a.toNat))
  | .ULE => some (fun a b => decide (a.toNat ≤ b.toNat))
  | .SGE => some (fun a b => decide (b.toInt ≤ a.toInt))
  | .SLT => some (fun a b => decide (a.toInt < b.toInt))
  | .SGT => some (fun a b => decide (b.toInt < a.toInt))
  | .SLE => some (fun a b => decide (a.toInt ≤ b.toInt))
  | _ => none

/-- The number a word stands for. -/
def num (signed : Bool) (a : Data) : Int := if signed then a.toInt else a.toNat

/-- The 16-bit result of an operation: sums, differences and the slices of the product at bits 0, 8, 16 are taken modulo `2^16`, shifts are by
the low four bits of `b`. -/
def opSpec (op : Op) (signed : Bool) (a b : Data) (d : Bool) : Data :=
  match op with
  | .Add => BitVec.ofInt 16 (num signed a + num signed b)
  | .Sub => BitVec.ofInt 16 (num signed a - num signed b)
  | .Mult0 => BitVec.ofInt 16 (num signed a * num signed b)
  | .Mult1 => BitVec.ofInt 16 (num signed a * num signed b / 2 ^ 8)
  | .Mult2 => BitVec.ofInt 16 (num signed a * num signed b / 2 ^ 16)
  | .GTE_Max => BitVec.ofInt 16 (max (num signed a) (num signed b))
  | .LTE_Min => BitVec.ofInt 16 (min (num signed a) (num signed b))
  | .Abs => BitVec.ofInt 16 (Int.natAbs (num signed a))
  | .Sel => if d then a else b
  | .And => a &&& b
  | .Or => a ||| b
  | .XOr => a ^^^ b
  | .SHR => BitVec.ofInt 16 (num signed a / 2 ^ (b.toNat % 16))
  | .SHL => BitVec.ofInt 16 (num signed a * 2 ^ (b.toNat % 16))

/-- The 1-bit result of an operation: the carry of a sum, whether a difference does not borrow, the comparison of the names `GTE` and `LTE`, the sign. -/
def predSpec (op : Op) (signed : Bool) (a b : Data) : Bool :=
  match op with
  | .Add => decide (2 ^ 16 ≤ a.toNat + b.toNat)
  | .Sub => decide (b.toNat ≤ a.toNat)
  | .GTE_Max => decide (num signed a ≥ num signed b)
  | .LTE_Min => decide (num signed a ≤ num signed b)
  | .Abs => decide (a.toInt < 0)
  | _ => false

/-- The overflow flag: the exact signed result does not fit. -/
def overflowSpec (op : Op) (a b : Data) : Bool :=
  match op with
  | .Add => decide (¬ (-2 ^ 15 ≤ a.toInt + b.toInt ∧ a.toInt + b.toInt < 2 ^ 15))
  | .Sub => decide (¬ (-2 ^ 15 ≤ a.toInt - b.toInt ∧ a.toInt - b.toInt < 2 ^ 15))
  | _ => false

/-- The value stored by a history of calls of a mode register, the latest call first: that of the latest call in `DELAY` mode, or in `VALID`
mode with the clock enabled. -/
def stored {α : Type} (init : α) : List (ModeArgs α) → α
  | [] => init
  | c :: earlier => if c.mode = .DELAY ∨ (c.mode = .VALID ∧ c.clkEn = true) then c.value else stored init earlier

/-- What a mode register returns when its latest call is `c`. -/
def returned {α : Type} (init : α) (c : ModeArgs α) (earlier : List (ModeArgs α)) : α :=
  match c.mode with
  | .CONST => c.const
  | .BYPASS => c.value
  | .DELAY | .VALID => stored init earlier

end Peak.PE1
