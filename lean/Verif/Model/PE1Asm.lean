import Verif.Model.PE1
/-!
# The builders of the PE example (examples/pe1/asm.py)

`LUT(lut)`, `RegA_Const(…)` etc. convert ints to vectors of their width, the lowest bits; the constants of the one-bit registers are bits.
-/

namespace Peak.PE1.Asm

open PE1

/-- The keywords of `inst` (asm.py:11-17) with their defaults. -/
structure Kw where
  signed : Sgn := .unsigned
  lut : Int := 0
  cond : Cond := .Z
  raMode : Mode := .BYPASS
  raConst : Int := 0
  rbMode : Mode := .BYPASS
  rbConst : Int := 0
  rdMode : Mode := .BYPASS
  rdConst : Bool := false
  reMode : Mode := .BYPASS
  reConst : Bool := false
  rfMode : Mode := .BYPASS
  rfConst : Bool := false

/-- `inst` (asm.py:11-24) -/
def inst (alu : Op) (k : Kw) : Inst :=
  ⟨alu, k.signed, BitVec.ofInt 8 k.lut, k.cond, k.raMode, BitVec.ofInt 16 k.raConst, k.rbMode, BitVec.ofInt 16 k.rbConst,
    k.rdMode, k.rdConst, k.reMode, k.reConst, k.rfMode, k.rfConst⟩

/-- asm.py:28-122, in the order of the file -/
def add (ra rb : Mode) := inst .Add { raMode := ra, rbMode := rb }
/-- examples/pe1/asm.py:31-32. -/
def sub := inst .Sub {}
/-- examples/pe1/asm.py:34-35. -/
def neg := inst .Sub {}
/-- examples/pe1/asm.py:37-38. -/
def umult0 := inst .Mult0 {}
/-- examples/pe1/asm.py:40-41. -/
def umult1 := inst .Mult1 {}
/-- examples/pe1/asm.py:43-44. -/
def umult2 := inst .Mult2 {}
/-- examples/pe1/asm.py:46-47. -/
def smult0 := inst .Mult0 { signed := .signed }
/-- examples/pe1/asm.py:49-50. -/
def smult1 := inst .Mult1 { signed := .signed }
/-- examples/pe1/asm.py:52-53. -/
def smult2 := inst .Mult2 { signed := .signed }
/-- examples/pe1/asm.py:57-58. -/
def and_ (ra rb : Mode) := inst .And { raMode := ra, rbMode := rb }
/-- examples/pe1/asm.py:60-61. -/
def or_ (ra rb : Mode) := inst .Or { raMode := ra, rbMode := rb }
/-- examples/pe1/asm.py:63-64. -/
def xor (ra rb : Mode) := inst .XOr { raMode := ra, rbMode := rb }
/-- examples/pe1/asm.py:66-67. -/
def lsl := inst .SHL {}
/-- examples/pe1/asm.py:69-70. -/
def lsr := inst .SHR {}
/-- examples/pe1/asm.py:72-73. -/
def asr := inst .SHR { signed := .signed }
/-- examples/pe1/asm.py:75-76. -/
def sel := inst .Sel {}
/-- examples/pe1/asm.py:78-79. -/
def abs := inst .Abs { signed := .signed }
/-- examples/pe1/asm.py:81-82. -/
def umin := inst .LTE_Min {}
/-- examples/pe1/asm.py:84-85. -/
def umax := inst .GTE_Max {}
/-- examples/pe1/asm.py:87-88. -/
def smin := inst .LTE_Min { signed := .signed }
/-- examples/pe1/asm.py:90-91. -/
def smax := inst .GTE_Max { signed := .signed }
/-- examples/pe1/asm.py:93-94. -/
def eq := inst .Sub { cond := .Z }
/-- examples/pe1/asm.py:96-97. -/
def ne := inst .Sub { cond := .Z_n }
/-- examples/pe1/asm.py:99-100. -/
def ult := inst .Sub { cond := .ULT }
/-- examples/pe1/asm.py:102-103. -/
def ule := inst .Sub { cond := .ULE }
/-- examples/pe1/asm.py:105-106. -/
def ugt := inst .Sub { cond := .UGT }
/-- examples/pe1/asm.py:108-109. -/
def uge := inst .Sub { cond := .UGE }
/-- examples/pe1/asm.py:111-112. -/
def slt := inst .Sub { cond := .SLT }
/-- examples/pe1/asm.py:114-115. -/
def sle := inst .Sub { cond := .SLE }
/-- examples/pe1/asm.py:117-118. -/
def sgt := inst .Sub { cond := .SGT }
/-- examples/pe1/asm.py:120-121. -/
def sge := inst .Sub { cond := .SGE }

end Peak.PE1.Asm
